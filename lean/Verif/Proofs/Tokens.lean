import Verif.Proofs.Truncate
import Verif.Spec.Tokens

/-!
# Decoders on texts with the same tokens
-/

namespace Verif

open Spec

/-- The texts begin with the same token, and have the same tokens. -/
inductive SameHead : Str → Str → Prop
  | same (s : Str) : SameHead s s
  | punct {c : UInt8} {s s' : Str} : c ∈ b!"[]{}" → SameTokens s s' → SameHead (c :: s) (c :: s')
  | string {t s s' : Str} : Quoted t → SameTokens s s' → SameHead (c!"\"" :: (t ++ c!"\"" :: s)) (c!"\"" :: (t ++ c!"\"" :: s'))
  | number {t s s' : Str} : LooseNumber t → EndsNumber s → EndsNumber s' → SameTokens s s' → SameHead (t ++ s) (t ++ s')
  | word {t s s' : Str} : LooseWord t → SameTokens s s' → SameHead (t ++ s) (t ++ s')

theorem SameHead.tokens {s s' : Str} (h : SameHead s s') : SameTokens s s' := by
  cases h with
  | same => exact .same _
  | punct h1 h2 => exact .punct h1 h2
  | string h1 h2 => exact .string h1 h2
  | number h1 h2 h3 h4 => exact .number h1 h2 h3 h4
  | word h1 h2 => exact .word h1 h2

theorem looseWord_cons {t : Str} (h : LooseWord t) : ∃ c t', t = c :: t' ∧ c ∈ b!"ntf" := by
  cases t with
  | nil => rcases h with ⟨h, _⟩ | ⟨h, _⟩ <;> cases h
  | cons c t =>
    refine ⟨c, t, rfl, ?_⟩
    rcases h with ⟨_, h | h⟩ | ⟨_, h⟩ <;> · injection h with h; subst h; decide

/-! ## White space -/

theorem dropSpace {w : Str} (h : LooseSpace w) (s : Str) : (w ++ s).dropWhile isCharSpace = s.dropWhile isCharSpace := by
  induction w with
  | nil => rfl
  | cons c w ih =>
    have key : ∀ c : UInt8, c ∈ ([0x09, 0x0A, 0x0B, 0x0C, 0x0D, 0x20, c!":", c!",", 0x85, 0xA0] : Str) → isCharSpace c = true := byte_forall (by decide +kernel)
    rw [List.cons_append, List.dropWhile_cons, if_pos (key c (h c (by simp)))]
    exact ih fun d hd => h d (by simp [hd])

theorem sameHead_of {s s' : Str} (h : SameTokens s s') :
    (s.dropWhile isCharSpace = [] ∧ s'.dropWhile isCharSpace = []) ∨
    (s.dropWhile isCharSpace ≠ [] ∧ s'.dropWhile isCharSpace ≠ [] ∧ SameHead (s.dropWhile isCharSpace) (s'.dropWhile isCharSpace)) := by
  have hstart : ∀ {c : UInt8} {s s' : Str}, isCharSpace c = false → SameHead (c :: s) (c :: s') →
      ((c :: s).dropWhile isCharSpace ≠ [] ∧ (c :: s').dropWhile isCharSpace ≠ [] ∧ SameHead ((c :: s).dropWhile isCharSpace) ((c :: s').dropWhile isCharSpace)) := by
    intro c s s' hc hh
    rw [List.dropWhile_cons, List.dropWhile_cons, if_neg (by simp [hc]), if_neg (by simp [hc])]
    exact ⟨by simp, by simp, hh⟩
  induction h with
  | same s =>
    by_cases he : s.dropWhile isCharSpace = []
    · exact .inl ⟨he, he⟩
    · exact .inr ⟨he, he, .same _⟩
  | space h1 h2 _ ih => rw [dropSpace h1, dropSpace h2]; exact ih
  | punct h1 h2 _ =>
    have key : ∀ c : UInt8, c ∈ b!"[]{}" → isCharSpace c = false := byte_forall (by decide +kernel)
    exact .inr (hstart (key _ h1) (.punct h1 h2))
  | string h1 h2 _ => exact .inr (hstart (by decide) (.string h1 h2))
  | number h1 h2 h3 h4 _ =>
    have key : ∀ c : UInt8, c ∈ b!"-0123456789" → isCharSpace c = false := byte_forall (by decide +kernel)
    have hh := SameHead.number h1 h2 h3 h4
    obtain ⟨c, t, rfl, hc, _⟩ := h1
    exact .inr (hstart (key _ hc) hh)
  | word h1 h2 _ =>
    have key : ∀ c : UInt8, c ∈ b!"ntf" → isCharSpace c = false := byte_forall (by decide +kernel)
    have hh := SameHead.word h1 h2
    obtain ⟨c, t, rfl, hc⟩ := looseWord_cons h1
    exact .inr (hstart (key _ hc) hh)

/-! ## Operations -/

/-- The outcomes are the same, up to the separators that follow. -/
def SameRun {α : Type} (ready : Bool) : SRun α → SRun α → Prop
  | .ok a s, .ok b s' => a = b ∧ SameTokens s s' ∧ (ready = true → SameHead s s')
  | .err, .err => True
  | .bad, .bad => True
  | _, _ => False

theorem SameRun.refl {α : Type} (ready : Bool) (r : SRun α) : SameRun ready r r := by
  cases r with
  | ok a s => exact ⟨rfl, .same s, fun _ => .same s⟩
  | err => trivial
  | bad => trivial

theorem scanString_quoted {t : Str} (h : Quoted t) (s : Str) : scanString false (t ++ c!"\"" :: s) = some (t, s) := by
  induction h with
  | nil => simp [scanString]
  | char h1 h2 _ ih => rw [List.cons_append, scanString, if_neg h2, if_neg h1, ih]; rfl
  | escape _ ih => rw [List.cons_append, List.cons_append, scanString, if_pos rfl, scanString, ih]; rfl

theorem SameHead.first {s s' : Str} (h : SameHead s s') : s = s' ∨ ∃ c t t', s = c :: t ∧ s' = c :: t' := by
  cases h with
  | same => exact .inl rfl
  | punct => exact .inr ⟨_, _, _, rfl, rfl⟩
  | string => exact .inr ⟨_, _, _, rfl, rfl⟩
  | number h1 =>
    obtain ⟨c, t, rfl, _⟩ := h1
    exact .inr ⟨_, _, _, rfl, rfl⟩
  | word h1 =>
    obtain ⟨c, t, rfl, _⟩ := looseWord_cons h1
    exact .inr ⟨_, _, _, rfl, rfl⟩

theorem number_rest {t s : Str} (ht : ∀ d ∈ t, d ∈ b!"-0123456789.e") (hs : EndsNumber s) :
    (t ++ s).dropWhile numberChar = s ∧ (t ++ s).takeWhile numberChar = t ∧ s ≠ [] := by
  have key : ∀ c : UInt8, c ∈ b!"-0123456789.e" ↔ numberChar c = true := byte_forall (by decide +kernel)
  obtain ⟨c, s, rfl, hc⟩ := hs
  have hc' : numberChar c = false := by
    rw [key] at hc
    simpa using hc
  induction t with
  | nil => simp [List.dropWhile_cons, List.takeWhile_cons, hc']
  | cons d t ih =>
    have hd := (key d).mp (ht d (by simp))
    have := ih fun e he => ht e (by simp [he])
    simp [List.dropWhile_cons, List.takeWhile_cons, hd, this]

theorem op_same (o : Op) {s s' : Str} (h : SameTokens s s') (hh : o.needsByte = true → SameHead s s') : SameRun o.readyAfter (o.stream s) (o.stream s') := by
  cases o with
  | skipWhitespace =>
    rcases sameHead_of h with ⟨h1, h2⟩ | ⟨h1, h2, h3⟩
    · simp only [Op.stream, h1, h2]; trivial
    · generalize e : s.dropWhile isCharSpace = u at *
      generalize e' : s'.dropWhile isCharSpace = u' at *
      cases u with
      | nil => exact absurd rfl h1
      | cons a u =>
        cases u' with
        | nil => exact absurd rfl h2
        | cons b u' =>
          simp only [Op.stream, e, e']
          exact ⟨rfl, h3.tokens, fun _ => h3⟩
  | current =>
    have hh := hh rfl
    rcases hh.first with rfl | ⟨c, t, t', rfl, rfl⟩
    · exact .refl _ _
    · exact ⟨rfl, h, fun _ => hh⟩
  | consume p =>
    have key : ∀ (p : Punct), ∀ c : UInt8, c ∉ b!"[]{}" → symbolTable c ≠ p.type := by
      intro p
      cases p <;> exact byte_forall (by decide +kernel)
    have other : ∀ {c : UInt8} {t t' : Str}, c ∉ b!"[]{}" → SameRun (Op.consume p).readyAfter (Op.stream (.consume p) (c :: t)) (Op.stream (.consume p) (c :: t')) := by
      intro c t t' hc
      simp only [Op.stream, if_neg (key p c hc)]
      trivial
    cases hh rfl with
    | same => exact .refl _ _
    | punct h1 h2 =>
      simp only [Op.stream]
      split
      · exact ⟨rfl, h2, fun hr => nomatch hr⟩
      · trivial
    | string => exact other (by decide)
    | number h1 =>
      obtain ⟨c, t, rfl, hc, _⟩ := h1
      have key' : ∀ c : UInt8, c ∈ b!"-0123456789" → c ∉ b!"[]{}" := byte_forall (by decide +kernel)
      exact other (key' c hc)
    | word h1 =>
      obtain ⟨c, t, rfl, hc⟩ := looseWord_cons h1
      have key' : ∀ c : UInt8, c ∈ b!"ntf" → c ∉ b!"[]{}" := byte_forall (by decide +kernel)
      exact other (key' c hc)
  | readString =>
    have other : ∀ {c : UInt8} {t t' : Str}, c ≠ c!"\"" → SameRun Op.readString.readyAfter (Op.stream .readString (c :: t)) (Op.stream .readString (c :: t')) := by
      intro c t t' hc
      simp only [Op.stream, if_pos hc]
      trivial
    cases hh rfl with
    | same => exact .refl _ _
    | punct h1 h2 =>
      have key' : ∀ c : UInt8, c ∈ b!"[]{}" → c ≠ c!"\"" := byte_forall (by decide +kernel)
      exact other (key' _ h1)
    | string h1 h2 =>
      simp only [Op.stream, scanString_quoted h1]
      rw [if_neg (by simp), if_neg (by simp)]
      cases unescape _ with
      | none => trivial
      | some v => exact ⟨rfl, h2, fun hr => nomatch hr⟩
    | number h1 =>
      obtain ⟨c, t, rfl, hc, _⟩ := h1
      have key' : ∀ c : UInt8, c ∈ b!"-0123456789" → c ≠ c!"\"" := byte_forall (by decide +kernel)
      exact other (key' c hc)
    | word h1 =>
      obtain ⟨c, t, rfl, hc⟩ := looseWord_cons h1
      have key' : ∀ c : UInt8, c ∈ b!"ntf" → c ≠ c!"\"" := byte_forall (by decide +kernel)
      exact other (key' c hc)
  | readNumber =>
    have other : ∀ {c : UInt8} {t t' : Str}, isCharDigit c = false → SameRun Op.readNumber.readyAfter (Op.stream .readNumber (c :: t)) (Op.stream .readNumber (c :: t')) := by
      intro c t t' hc
      simp only [Op.stream, hc]
      trivial
    cases hh rfl with
    | same => exact .refl _ _
    | punct h1 h2 =>
      have key' : ∀ c : UInt8, c ∈ b!"[]{}" → isCharDigit c = false := byte_forall (by decide +kernel)
      exact other (key' _ h1)
    | string => exact other (by decide)
    | number h1 h2 h3 h4 =>
      obtain ⟨c, t, rfl, hc, ht⟩ := h1
      obtain ⟨e1, e2, e3⟩ := number_rest ht h2
      obtain ⟨e1', e2', e3'⟩ := number_rest ht h3
      have key' : ∀ c : UInt8, c ∈ b!"-0123456789" → isCharDigit c = true := byte_forall (by decide +kernel)
      simp only [Op.stream, List.cons_append, key' c hc, e1, e2, e1', e2']
      rename_i s s'
      cases s with
      | nil => exact absurd rfl e3
      | cons a s =>
        cases s' with
        | nil => exact absurd rfl e3'
        | cons b s' => exact ⟨rfl, h4, fun hr => nomatch hr⟩
    | word h1 =>
      obtain ⟨c, t, rfl, hc⟩ := looseWord_cons h1
      have key' : ∀ c : UInt8, c ∈ b!"ntf" → isCharDigit c = false := byte_forall (by decide +kernel)
      exact other (key' c hc)
  | readWord w =>
    have other : ∀ {c : UInt8} {t t' : Str}, c ≠ w.first → SameRun (Op.readWord w).readyAfter (Op.stream (.readWord w) (c :: t)) (Op.stream (.readWord w) (c :: t')) := by
      intro c t t' hc
      simp only [Op.stream, if_pos hc, ite_self]
      trivial
    have key : ∀ (w : Word), ∀ c : UInt8, c ∉ b!"ntf" → c ≠ w.first := by
      intro w
      cases w <;> exact byte_forall (by decide +kernel)
    cases hh rfl with
    | same => exact .refl _ _
    | punct h1 h2 =>
      have key' : ∀ c : UInt8, c ∈ b!"[]{}" → c ∉ b!"ntf" := byte_forall (by decide +kernel)
      exact other (key w _ (key' _ h1))
    | string => exact other (key w _ (by decide))
    | number h1 =>
      obtain ⟨c, t, rfl, hc, _⟩ := h1
      have key' : ∀ c : UInt8, c ∈ b!"-0123456789" → c ∉ b!"ntf" := byte_forall (by decide +kernel)
      exact other (key w c (key' c hc))
    | word h1 h2 =>
      obtain ⟨c, t, rfl, hc⟩ := looseWord_cons h1
      by_cases hw : c = w.first
      · have hl : (c :: t).length = w.length := by
          rcases h1 with ⟨hl, hc⟩ | ⟨hl, hc⟩
          · rw [hl]
            subst hw
            cases w with
            | null => rfl
            | true => rfl
            | false => rcases hc with hc | hc <;> cases hc
          · rw [hl]
            subst hw
            cases w with
            | null => cases hc
            | true => cases hc
            | false => rfl
        have step : ∀ s : Str, Op.stream (.readWord w) (c :: t ++ s) = .ok (c :: t) s := by
          intro s
          rw [List.cons_append]
          simp only [Op.stream]
          rw [← List.cons_append, if_neg (by rw [List.length_append]; omega), if_neg (by simpa using hw), ← hl, List.take_left, List.drop_left]
        rw [step, step]
        exact ⟨rfl, h2, fun hr => nomatch hr⟩
      · exact other hw

/-! ## Programs -/

/-- The outcomes are the same, up to what is left of the texts. -/
def SameDecoded {σ : Type} : SDecoded σ → SDecoded σ → Prop
  | .ok m b _, .ok m' b' _ => m = m' ∧ b = b'
  | .err m, .err m' => m = m'
  | .bad, .bad => True
  | .timeout, .timeout => True
  | _, _ => False

theorem SameDecoded.refl {σ : Type} (r : SDecoded σ) : SameDecoded r r := by
  cases r <;> simp [SameDecoded]

theorem prog_same {σ : Type} (prog : Prog σ) {r : Bool} {s s' : Str} (h : SameTokens s s') (hh : r = true → SameHead s s') : SameDecoded (prog.stream r s) (prog.stream r s') := by
  induction prog generalizing r s s' with
  | done m => exact ⟨rfl, rfl⟩
  | fail m => exact rfl
  | timeout => trivial
  | op o m k ih =>
    unfold Prog.stream
    by_cases hn : (o.needsByte && !r) = true
    · rw [if_pos hn, if_pos hn]; trivial
    · rw [if_neg hn, if_neg hn]
      have ho := op_same o h (fun hb => hh (by rw [hb] at hn; simpa using hn))
      generalize o.stream s = x at ho
      generalize o.stream s' = x' at ho
      cases x with
      | ok a t =>
        cases x' with
        | ok b t' =>
          obtain ⟨rfl, h1, h2⟩ := ho
          exact ih a h1 h2
        | err => exact ho.elim
        | bad => exact ho.elim
      | err =>
        cases x' with
        | ok b t' => exact ho.elim
        | err => exact rfl
        | bad => exact ho.elim
      | bad =>
        cases x' with
        | ok b t' => exact ho.elim
        | err => exact ho.elim
        | bad => trivial

theorem Settles.same {σ : Type} {d : Nat → Prog σ} {data data' : Str} {out out' : SDecoded σ} (h : Settles d data out) (h' : Settles d data' out') (hd : SameTokens data data') :
    SameDecoded out out' := by
  have e := h.later (max (2 * data.length + 1) (2 * data'.length + 1)) (Nat.le_max_left _ _)
  have e' := h'.later (max (2 * data.length + 1) (2 * data'.length + 1)) (Nat.le_max_right _ _)
  rw [← e, ← e']
  exact prog_same _ hd (fun hr => nomatch hr)

end Verif
