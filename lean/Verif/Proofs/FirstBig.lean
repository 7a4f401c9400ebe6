import Verif.Proofs.Bounded
import Verif.Proofs.Truncate
import Verif.Proofs.Maps

/-!
# The first token that fills the buffer
-/

namespace Verif

open Spec (LexState TokensFit TokenEnds Oversized Filling NumberChar NumberStart)

theorem Spec.LexState.after_cons (st : LexState) (c : UInt8) (l : List UInt8) : st.after (c :: l) = (st.next c).after l := rfl

theorem Spec.LexState.after_append (st : LexState) (l l' : List UInt8) : st.after (l ++ l') = (st.after l).after l' := List.foldl_append

/-! ## What the lexer knows about a long token -/

/-- The bytes since the beginning of the string (with its quote) or number. -/
def Spec.LexState.weight : LexState → Nat
  | .string _ n => n + 1
  | .number n => n
  | _ => 0

theorem start_weight (c : UInt8) : (LexState.start c).weight ≤ 1 := by
  unfold LexState.start
  repeat' split
  all_goals simp [LexState.weight]

theorem start_other {c : UInt8} (hq : c ≠ c!"\"") (hs : ¬ NumberStart c) : (LexState.start c).weight = 0 := by
  unfold LexState.start
  rw [if_neg hq, if_neg hs]
  repeat' split
  all_goals rfl

theorem next_weight (st : LexState) (c : UInt8) : (st.next c).weight ≤ st.weight + 1 := by
  have h := start_weight c
  unfold LexState.next
  repeat' split
  all_goals simp only [LexState.weight] at h ⊢
  all_goals omega

theorem after_weight (st : LexState) (l : List UInt8) : (st.after l).weight ≤ st.weight + l.length := by
  induction l generalizing st with
  | nil => simp [LexState.after]
  | cons c l ih =>
    have h1 := ih (st.next c)
    have h2 := next_weight st c
    rw [LexState.after_cons, List.length_cons]
    omega

theorem after_string {e : Bool} {n : Nat} {l : List UInt8} (h : ((LexState.string e n).after l).weight = n + 1 + l.length) :
    (∃ e', (LexState.string e n).after l = .string e' (n + l.length)) ∧ ∀ u, l.length ≤ stringEnd e (l ++ u) := by
  induction l generalizing e n with
  | nil => exact ⟨⟨e, rfl⟩, fun _ => Nat.zero_le _⟩
  | cons c l ih =>
    rw [LexState.after_cons] at h ⊢
    rw [List.length_cons] at h ⊢
    have key : ∀ e', (LexState.string e n).next c = .string e' (n + 1) → (∀ u, stringEnd e (c :: l ++ u) = stringEnd e' (l ++ u) + 1) →
        (∃ e', ((LexState.string e n).next c).after l = .string e' (n + (l.length + 1))) ∧ ∀ u, l.length + 1 ≤ stringEnd e (c :: l ++ u) := by
      intro e' he hs
      rw [he] at h ⊢
      obtain ⟨⟨e2, h1⟩, h2⟩ := ih (e := e') (n := n + 1) (by omega)
      refine ⟨⟨e2, by rw [h1]; congr 1; omega⟩, fun u => ?_⟩
      rw [hs]
      have := h2 u
      omega
    cases e with
    | true => exact key false rfl (fun _ => rfl)
    | false =>
      by_cases hb : c = c!"\\"
      · exact key true (by simp [LexState.next, hb]) (fun u => by rw [List.cons_append]; simp only [stringEnd]; rw [if_pos hb])
      · by_cases hq : c = c!"\""
        · have hnext : (LexState.string false n).next c = .between := by simp only [LexState.next]; rw [if_neg hb, if_pos hq]
          rw [hnext] at h
          have h1 := after_weight .between l
          have h2 : LexState.between.weight = 0 := rfl
          omega
        · exact key false (by simp only [LexState.next]; rw [if_neg hb, if_neg hq])
            (fun u => by rw [List.cons_append]; simp only [stringEnd]; rw [if_neg hb, if_neg hq])

theorem after_number {n : Nat} (hn : 0 < n) {l : List UInt8} (h : ((LexState.number n).after l).weight = n + l.length) :
    (LexState.number n).after l = .number (n + l.length) ∧ ∀ c ∈ l, numberChar c = true := by
  induction l generalizing n with
  | nil => exact ⟨rfl, by simp⟩
  | cons c l ih =>
    rw [LexState.after_cons] at h ⊢
    rw [List.length_cons] at h ⊢
    simp only [LexState.next] at h ⊢
    by_cases hc : NumberChar c
    · rw [if_pos hc] at h ⊢
      obtain ⟨h1, h2⟩ := ih (n := n + 1) (by omega) (by omega)
      refine ⟨by rw [h1]; congr 1; omega, fun x hx => ?_⟩
      rcases List.mem_cons.mp hx with rfl | hx
      · exact (Parser.numberChar_iff _).mpr hc
      · exact h2 x hx
    · rw [if_neg hc] at h
      have h1 := after_weight (LexState.start c) l
      have h2 := start_weight c
      omega

/-- A long token in terms of the operations. -/
def Long (size : Nat) (s : List UInt8) : Prop :=
  (∃ u, s = c!"\"" :: u ∧ size ≤ stringEnd false u) ∨ (∃ c u, s = c :: u ∧ isCharDigit c = true ∧ size ≤ (u.takeWhile numberChar).length + 1)

theorem long_of_string {size : Nat} {s : List UInt8} {esc : Bool} (h : LexState.between.after (s.take (size + 1)) = .string esc size)
    (hl : size + 1 ≤ s.length) : ∃ u, s = c!"\"" :: u ∧ size ≤ stringEnd false u := by
  rcases s with _ | ⟨c, u⟩
  · simp at hl
  · have hl : size ≤ u.length := by simpa using hl
    have hlen : (u.take size).length = size := by rw [List.length_take]; omega
    rw [List.take_succ_cons, LexState.after_cons] at h
    simp only [LexState.next] at h
    have hw := after_weight (LexState.start c) (u.take size)
    rw [h, hlen, show (LexState.string esc size).weight = size + 1 from rfl] at hw
    have hq : c = c!"\"" := by
      refine Classical.byContradiction fun hq => ?_
      by_cases hs : NumberStart c
      · unfold LexState.start at h
        rw [if_neg hq, if_pos hs] at h
        have h2 := after_number (n := 1) (by omega) (l := u.take size) (by rw [h, hlen]; simp only [LexState.weight]; omega)
        rw [h2.1] at h
        cases h
      · rw [start_other hq hs] at hw
        omega
    refine ⟨u, by rw [hq], ?_⟩
    have hst : LexState.start c = .string false 0 := by rw [hq]; rfl
    rw [hst] at h
    have h2 := (after_string (e := false) (n := 0) (l := u.take size) (by rw [h, hlen]; simp only [LexState.weight]; omega)).2 (u.drop size)
    rw [List.take_append_drop, hlen] at h2
    exact h2

theorem takeWhile_all {l u : List UInt8} (h : ∀ c ∈ l, numberChar c = true) : l.length ≤ ((l ++ u).takeWhile numberChar).length := by
  induction l with
  | nil => simp
  | cons c l ih =>
    rw [List.cons_append, List.takeWhile_cons, if_pos (h c List.mem_cons_self), List.length_cons, List.length_cons]
    have := ih fun x hx => h x (List.mem_cons_of_mem _ hx)
    omega

theorem long_of_number {size : Nat} {s : List UInt8} (h0 : 0 < size) (h : LexState.between.after (s.take size) = .number size)
    (hl : size ≤ s.length) : ∃ c u, s = c :: u ∧ isCharDigit c = true ∧ size ≤ (u.takeWhile numberChar).length + 1 := by
  obtain ⟨k, rfl⟩ : ∃ k, size = k + 1 := ⟨size - 1, by omega⟩
  rcases s with _ | ⟨c, u⟩
  · simp at hl
  · have hl : k ≤ u.length := by simpa using hl
    have hlen : (u.take k).length = k := by rw [List.length_take]; omega
    rw [List.take_succ_cons, LexState.after_cons] at h
    simp only [LexState.next] at h
    have hw := after_weight (LexState.start c) (u.take k)
    rw [h, hlen, show (LexState.number (k + 1)).weight = k + 1 from rfl] at hw
    have hq : c ≠ c!"\"" := by
      intro hq
      have hst : LexState.start c = .string false 0 := by rw [hq]; rfl
      rw [hst] at h
      obtain ⟨⟨e, h2⟩, _⟩ := after_string (e := false) (n := 0) (l := u.take k) (by rw [h, hlen]; simp only [LexState.weight]; omega)
      rw [h2] at h
      cases h
    have hs : NumberStart c := by
      refine Classical.byContradiction fun hs => ?_
      rw [start_other hq hs] at hw
      omega
    refine ⟨c, u, rfl, (Parser.isCharDigit_iff c).mpr hs, ?_⟩
    have hst : LexState.start c = .number 1 := by unfold LexState.start; rw [if_neg hq, if_pos hs]
    rw [hst] at h
    have h2 := (after_number (n := 1) (by omega) (l := u.take k) (by rw [h, hlen]; simp only [LexState.weight]; omega)).2
    have := takeWhile_all (u := u.drop k) h2
    rw [List.take_append_drop, hlen] at this
    omega

/-! ## An operation in front of such a token -/

theorem after_scanString {esc : Bool} {n : Nat} {s body s' : List UInt8} (h : scanString esc s = some (body, s')) :
    (LexState.string esc n).after s = LexState.between.after s' := by
  induction s generalizing esc n body with
  | nil => cases h
  | cons c s ih =>
    have key : ∀ e', (LexState.string esc n).next c = .string e' (n + 1) → ((scanString e' s).map fun r => (c :: r.1, r.2)) = some (body, s') →
        (LexState.string esc n).after (c :: s) = LexState.between.after s' := by
      intro e' he hs
      obtain ⟨⟨b, t⟩, h1, h2⟩ := Option.map_eq_some_iff.mp hs
      injection h2 with _ h2
      dsimp only at h2
      rw [LexState.after_cons, he]
      exact ih (by rw [h1, h2])
    cases esc with
    | true => exact key false rfl h
    | false =>
      simp only [scanString] at h
      by_cases hb : c = c!"\\"
      · rw [if_pos hb] at h
        exact key true (by simp [LexState.next, hb]) h
      · rw [if_neg hb] at h
        by_cases hq : c = c!"\""
        · rw [if_pos hq] at h
          injection h with h
          injection h with _ h
          rw [LexState.after_cons, ← h]
          simp only [LexState.next]
          rw [if_neg hb, if_pos hq]
        · rw [if_neg hq] at h
          exact key false (by simp only [LexState.next]; rw [if_neg hb, if_neg hq]) h

theorem after_unclosed {esc : Bool} {n : Nat} {s : List UInt8} (h : scanString esc s = none) : ∃ e k, (LexState.string esc n).after s = .string e k := by
  induction s generalizing esc n with
  | nil => exact ⟨esc, n, rfl⟩
  | cons c s ih =>
    cases esc with
    | true => exact ih (by simpa [scanString] using h)
    | false =>
      simp only [scanString] at h
      rw [LexState.after_cons]
      simp only [LexState.next]
      by_cases hb : c = c!"\\"
      · rw [if_pos hb] at h ⊢
        exact ih (by simpa using h)
      · rw [if_neg hb] at h ⊢
        by_cases hq : c = c!"\""
        · rw [if_pos hq] at h
          cases h
        · rw [if_neg hq] at h ⊢
          exact ih (by simpa using h)

theorem stringEnd_append {esc : Bool} {s body s' : List UInt8} (h : scanString esc s = some (body, s')) (q : List UInt8) :
    stringEnd esc (s ++ q) = stringEnd esc s := by
  induction s generalizing esc body with
  | nil => cases h
  | cons c s ih =>
    have key : ∀ e', ((scanString e' s).map fun r => (c :: r.1, r.2)) = some (body, s') → stringEnd e' (s ++ q) = stringEnd e' s := by
      intro e' hs
      obtain ⟨⟨b, t⟩, h1, h2⟩ := Option.map_eq_some_iff.mp hs
      injection h2 with _ h2
      dsimp only at h2
      exact ih (by rw [h1, h2])
    cases esc with
    | true =>
      rw [List.cons_append]
      simp only [stringEnd]
      rw [key false h]
    | false =>
      rw [List.cons_append]
      simp only [scanString, stringEnd] at h ⊢
      by_cases hb : c = c!"\\"
      · rw [if_pos hb] at h
        rw [if_pos hb, if_pos hb, key true h]
      · rw [if_neg hb] at h
        rw [if_neg hb, if_neg hb]
        by_cases hq : c = c!"\""
        · rw [if_pos hq, if_pos hq]
        · rw [if_neg hq] at h
          rw [if_neg hq, if_neg hq, key false h]

theorem after_number_drop {n : Nat} {s : List UInt8} (h : s.dropWhile numberChar ≠ []) :
    (LexState.number n).after s = LexState.between.after (s.dropWhile numberChar) := by
  induction s generalizing n with
  | nil => exact absurd rfl h
  | cons c s ih =>
    rw [List.dropWhile_cons] at h ⊢
    rw [LexState.after_cons]
    by_cases hc : numberChar c = true
    · rw [if_pos hc] at h ⊢
      simp only [LexState.next]
      rw [if_pos ((Parser.numberChar_iff c).mp hc)]
      exact ih h
    · rw [if_neg hc]
      simp only [LexState.next]
      rw [if_neg (fun hh => hc ((Parser.numberChar_iff c).mpr hh)), LexState.after_cons]
      rfl

theorem after_number_all {n : Nat} {s : List UInt8} (h : ∀ c ∈ s, numberChar c = true) : (LexState.number n).after s = .number (n + s.length) := by
  induction s generalizing n with
  | nil => rfl
  | cons c s ih =>
    rw [LexState.after_cons]
    simp only [LexState.next]
    rw [if_pos ((Parser.numberChar_iff c).mp (h c List.mem_cons_self)), ih fun x hx => h x (List.mem_cons_of_mem _ hx), List.length_cons]
    congr 1
    omega

theorem after_word {k : Nat} {s : List UInt8} (h : k + 1 ≤ s.length) : (LexState.word (k + 1)).after s = LexState.between.after (s.drop (k + 1)) := by
  induction k generalizing s with
  | zero =>
    rcases s with _ | ⟨c, s⟩
    · simp at h
    · rfl
  | succ k ih =>
    rcases s with _ | ⟨c, s⟩
    · simp at h
    · rw [LexState.after_cons]
      simp only [LexState.next, if_neg (show ¬ k + 1 + 1 ≤ 1 by omega), Nat.add_sub_cancel, List.drop_succ_cons]
      exact ih (by simpa using h)

theorem after_word_short {k : Nat} {s : List UInt8} (h : s.length < k) : (LexState.word k).after s = .word (k - s.length) := by
  induction s generalizing k with
  | nil => rfl
  | cons c s ih =>
    rw [List.length_cons] at h
    rw [LexState.after_cons]
    simp only [LexState.next]
    rw [if_neg (by omega), ih (by omega), List.length_cons]
    congr 1
    omega

/-- What an operation does at a place in front of the long token. -/
inductive Meets (size : Nat) (over : Bool) (c : UInt8) (u : List UInt8) (o : Op) (pre : List UInt8) : Prop
  /-- it fails, whatever comes behind the first byte of the token -/
  | fails (h : ∀ q, o.Fits size (pre ++ c :: q) ∧ o.stream (pre ++ c :: q) = .err)
  /-- it succeeds, in front of the token, whatever comes behind its first byte -/
  | passes (a : o.Res) (pre' : List UInt8) (h : ∀ q, o.Fits size (pre ++ c :: q) ∧ o.stream (pre ++ c :: q) = .ok a (pre' ++ c :: q))
      (hfit : TokensFit size pre') (hend : TokenEnds pre' c)
  /-- it is the one that reads the token -/
  | reads (h : ¬ o.Fits size (pre ++ c :: u)) (hl : over = true ↔ size < (o.behind (pre ++ c :: u)).length)

theorem numberStart_char {c : UInt8} (h : NumberStart c) : NumberChar c := .inl h

theorem Op.meets {size : Nat} (h0 : 0 < size) {c : UInt8} {u pre : List UInt8}
    {over : Bool} (hbig : (c = c!"\"" ∧ size ≤ stringEnd false u ∧ (over = true ↔ size < u.length)) ∨
      (isCharDigit c = true ∧ size ≤ (u.takeWhile numberChar).length + 1 ∧ (over = true ↔ size < u.length + 1)))
    (hfit : TokensFit size pre) (hend : TokenEnds pre c) (o : Op) : Meets size over c u o pre := by
  have hc : c = c!"\"" ∨ isCharDigit c = true := by
    rcases hbig with h | h
    · exact .inl h.1
    · exact .inr h.1
  cases o with
  | skipWhitespace =>
    have key : ∀ pre : List UInt8, TokensFit size pre → TokenEnds pre c →
        (∀ q, Op.stream .skipWhitespace (pre ++ c :: q) = .ok () (pre.dropWhile isCharSpace ++ c :: q)) ∧ TokensFit size (pre.dropWhile isCharSpace) ∧
          TokenEnds (pre.dropWhile isCharSpace) c := by
      intro pre
      induction pre with
      | nil =>
        intro h1 h2
        refine ⟨fun q => ?_, h1, h2⟩
        have hsp : ∀ c : UInt8, (c = c!"\"" ∨ isCharDigit c = true) → ¬ isCharSpace c = true := byte_forall (by decide +kernel)
        simp only [Op.stream, List.nil_append, List.dropWhile_cons, List.dropWhile_nil]
        rw [if_neg (hsp c hc)]
      | cons d pre ih =>
        intro h1 h2
        rw [List.dropWhile_cons]
        by_cases hd : isCharSpace d = true
        · rw [if_pos hd]
          have hd' : symbolTable d = .whitespace := by simpa [isCharSpace] using hd
          have hst : LexState.start d = .between := start_between (by rw [hd']; decide)
          have := ih (fits_drop_between h1 (by rw [hd']; decide)) (by
            unfold TokenEnds at h2 ⊢
            rw [LexState.after_cons] at h2
            simp only [LexState.next, hst] at h2
            exact h2)
          refine ⟨fun q => ?_, this.2⟩
          rw [← this.1 q]
          simp only [Op.stream, List.cons_append, List.dropWhile_cons]
          rw [if_pos hd]
        · rw [if_neg hd]
          refine ⟨fun q => ?_, h1, h2⟩
          simp only [Op.stream, List.cons_append, List.dropWhile_cons]
          rw [if_neg hd]
    obtain ⟨k1, k2, k3⟩ := key pre hfit hend
    exact .passes () _ (fun q => ⟨trivial, k1 q⟩) k2 k3
  | current =>
    cases pre with
    | nil => exact .passes c [] (fun q => ⟨trivial, rfl⟩) hfit hend
    | cons d pre => exact .passes d (d :: pre) (fun q => ⟨trivial, rfl⟩) hfit hend
  | consume t =>
    cases pre with
    | nil =>
      refine .fails fun q => ⟨trivial, ?_⟩
      simp only [List.nil_append, Op.stream]
      rw [if_neg]
      have key : ∀ c : UInt8, (c = c!"\"" ∨ isCharDigit c = true) → symbolTable c = .string ∨ symbolTable c = .number := byte_forall (by decide +kernel)
      rcases key c hc with h | h <;> rw [h] <;> cases t <;> decide
    | cons d pre =>
      by_cases hd : symbolTable d = t.type
      · have hb : symbolTable d ≠ .number ∧ symbolTable d ≠ .string ∧ symbolTable d ≠ .null ∧ symbolTable d ≠ .boolean := by
          rw [hd]
          cases t <;> decide
        refine .passes () pre (fun q => ⟨trivial, ?_⟩) (fits_drop_between hfit hb) ?_
        · simp only [List.cons_append, Op.stream]
          rw [if_pos hd]
        · unfold TokenEnds at hend ⊢
          rw [LexState.after_cons] at hend
          simp only [LexState.next, start_between hb] at hend
          exact hend
      · refine .fails fun q => ⟨trivial, ?_⟩
        simp only [List.cons_append, Op.stream]
        rw [if_neg hd]
  | readString =>
    cases pre with
    | nil =>
      rcases hbig with ⟨hq, h1, h2⟩ | ⟨hd, _, _⟩
      · refine .reads ?_ (by simpa [Op.behind] using h2)
        intro hf
        have := hf u (by rw [hq]; rfl)
        omega
      · have hq : c ≠ c!"\"" := by
          rintro rfl
          exact absurd hd (by decide)
        refine .fails fun q => ⟨?_, ?_⟩
        · rintro t ht
          injection ht with ht _
          exact absurd ht hq
        · simp only [List.nil_append, Op.stream]
          rw [if_pos hq]
    | cons d pre =>
      by_cases hq : d = c!"\""
      · have hst : LexState.between.next d = .string false 0 := by rw [hq]; rfl
        have hfit2 : Spec.FitsFrom size (.string false 0) pre := by
          have := hfit.2
          rw [hst] at this
          exact this
        have hend2 : TokenEnds (d :: pre) c := hend
        unfold TokenEnds at hend
        rw [LexState.after_cons, hst] at hend
        cases hs : scanString false pre with
        | none =>
          obtain ⟨e, k, hk⟩ := after_unclosed (n := 0) hs
          rw [hk] at hend
          rcases hend with hend | ⟨⟨n, hend⟩, _⟩ <;> cases hend
        | some r =>
          obtain ⟨body, pre'⟩ := r
          rw [after_scanString hs] at hend
          have hf : ∀ q, Op.Fits size .readString (d :: pre ++ c :: q) := by
            intro q t ht
            rw [List.cons_append] at ht
            injection ht with _ ht
            rw [← ht, stringEnd_append hs]
            have := fits_stringEnd (n := 0) hfit2 h0
            omega
          cases hu : Spec.unescape body with
          | none =>
            refine .fails fun q => ⟨hf q, ?_⟩
            simp only [List.cons_append, Op.stream]
            rw [if_neg (by simp [hq]), scanString_extend hs]
            simp only [hu]
          | some v =>
            refine .passes v pre' (fun q => ⟨hf q, ?_⟩) (fits_scanString hfit2 hs) hend
            simp only [List.cons_append, Op.stream]
            rw [if_neg (by simp [hq]), scanString_extend hs]
            simp only [hu]
      · refine .fails fun q => ⟨?_, ?_⟩
        · rintro t ht
          injection ht with ht _
          exact absurd ht hq
        · simp only [List.cons_append, Op.stream]
          rw [if_pos hq]
  | readNumber =>
    have e : ∀ (c : UInt8) (l : List UInt8), Op.stream .readNumber (c :: l) =
        if !isCharDigit c then .err else if l.dropWhile numberChar = [] then .err else .ok (c :: l.takeWhile numberChar) (l.dropWhile numberChar) := by
      intro c l; simp only [Op.stream]; split
      · rfl
      · split <;> simp_all
    cases pre with
    | nil =>
      rcases hbig with ⟨hq, h1, h2⟩ | ⟨hd, h1, h2⟩
      · have hd : ¬ isCharDigit c = true := by rw [hq]; decide
        refine .fails fun q => ⟨?_, ?_⟩
        · rintro x t ht hx
          injection ht with ht _
          rw [← ht] at hx
          exact absurd hx hd
        · rw [List.nil_append, e, if_pos (by simpa using hd)]
      · refine .reads ?_ (by simpa [Op.behind] using h2)
        intro hf
        have := hf c u rfl hd
        omega
    | cons d pre =>
      by_cases hd : isCharDigit d = true
      · have hds := (Parser.isCharDigit_iff d).mp hd
        have hnq : d ≠ c!"\"" := by
          rintro rfl
          exact absurd hd (by decide)
        have hst : LexState.between.next d = .number 1 := by
          simp only [LexState.next, LexState.start]
          rw [if_neg hnq, if_pos hds]
        obtain ⟨hf1, hf2⟩ := hfit
        rw [hst] at hf1 hf2
        have hnum := fits_numberEnd hf2 hf1
        unfold TokenEnds at hend
        rw [LexState.after_cons, hst] at hend
        by_cases hw : pre.dropWhile numberChar = []
        · -- the number ends where the token begins
          have hall : ∀ x ∈ pre, numberChar x = true := by
            have := List.takeWhile_append_dropWhile (p := numberChar) (l := pre)
            rw [hw, List.append_nil] at this
            rw [← this]
            exact List.all_eq_true.mp List.all_takeWhile
          rw [after_number_all hall] at hend
          have hnc : ¬ numberChar c = true := by
            rcases hend with hend | ⟨_, hend⟩
            · cases hend
            · exact fun hh => hend ((Parser.numberChar_iff c).mp hh)
          have htk : ∀ q, (pre ++ c :: q).takeWhile numberChar = pre := by
            intro q
            rw [List.takeWhile_append_of_pos hall, List.takeWhile_cons, if_neg hnc, List.append_nil]
          have hdp : ∀ q, (pre ++ c :: q).dropWhile numberChar = c :: q := by
            intro q
            rw [List.dropWhile_append_of_pos hall, List.dropWhile_cons, if_neg hnc]
          have htk0 : pre.takeWhile numberChar = pre := by
            have := List.takeWhile_append_dropWhile (p := numberChar) (l := pre)
            rw [hw, List.append_nil] at this
            exact this
          refine .passes (d :: pre) [] (fun q => ⟨?_, ?_⟩) trivial (.inl rfl)
          · intro x t ht _
            injection ht with _ ht
            rw [← ht, List.append_eq, htk]
            rw [htk0] at hnum
            omega
          · rw [List.cons_append, e, if_neg (by simp [hd]), htk, hdp, if_neg (by simp)]
            rfl
        · rw [after_number_drop hw] at hend
          refine .passes (d :: pre.takeWhile numberChar) (pre.dropWhile numberChar) (fun q => ⟨?_, ?_⟩) (fits_number hf2) hend
          · intro x t ht _
            injection ht with _ ht
            rw [← ht, List.append_eq, takeWhile_append_ne hw]
            omega
          · rw [List.cons_append, e, if_neg (by simp [hd]), takeWhile_append_ne hw, dropWhile_append_ne hw, if_neg (by simp)]
      · refine .fails fun q => ⟨?_, ?_⟩
        · rintro x t ht hx
          injection ht with ht _
          rw [← ht] at hx
          exact absurd hx hd
        · rw [List.cons_append, e, if_pos (by simpa using hd)]
  | readWord w =>
    cases pre with
    | nil =>
      refine .fails fun q => ⟨trivial, ?_⟩
      have hw : c ≠ w.first := by
        rintro rfl
        revert hc
        cases w <;> decide
      simp only [List.nil_append, Op.stream]
      split
      · rfl
      · simp [hw]
    | cons d pre =>
      by_cases hd : d = w.first
      · obtain ⟨k, hk, hst⟩ : ∃ k, w.length = k + 2 ∧ LexState.between.next d = .word (k + 1) := by
          rw [hd]
          cases w with
          | null => exact ⟨2, rfl, by decide⟩
          | true => exact ⟨2, rfl, by decide⟩
          | false => exact ⟨3, rfl, by decide⟩
        have hf2 := hfit.2
        rw [hst] at hf2
        unfold TokenEnds at hend
        rw [LexState.after_cons, hst] at hend
        by_cases hl : k + 1 ≤ pre.length
        · rw [after_word hl] at hend
          refine .passes ((d :: pre).take w.length) (pre.drop (k + 1)) (fun q => ⟨trivial, ?_⟩) (fits_word hf2 hl) hend
          simp only [List.cons_append, Op.stream]
          rw [if_neg (by rw [hk]; simp; omega), if_neg (by simp [hd]), hk]
          simp only [List.take_succ_cons, List.drop_succ_cons]
          rw [List.take_append_of_le_length hl, List.drop_append_of_le_length hl]
        · rw [after_word_short (by omega)] at hend
          rcases hend with hend | ⟨⟨n, hend⟩, _⟩ <;> cases hend
      · refine .fails fun q => ⟨trivial, ?_⟩
        simp only [List.cons_append, Op.stream]
        split
        · rfl
        · simp [hd]

/-! ## A decoder in front of such a token -/

/-- More bytes behind those that are left. -/
def SDecoded.append {σ : Type} : SDecoded σ → List UInt8 → SDecoded σ
  | .ok m r s, q => .ok m r (s ++ q)
  | .err m, _ => .err m
  | .bad, _ => .bad
  | .timeout, _ => .timeout

theorem Prog.meets {σ : Type} {size : Nat} (h0 : 0 < size) {c : UInt8} {u : List UInt8}
    {over : Bool} (hbig : (c = c!"\"" ∧ size ≤ stringEnd false u ∧ (over = true ↔ size < u.length)) ∨
      (isCharDigit c = true ∧ size ≤ (u.takeWhile numberChar).length + 1 ∧ (over = true ↔ size < u.length + 1)))
    (prog : Prog σ) (ready : Bool) (hsafe : prog.Safe ready) {pre : List UInt8} (hfit : TokensFit size pre) (hend : TokenEnds pre c) :
    (∃ o : SDecoded σ, ∀ q, prog.Fits size (pre ++ c :: q) ∧ prog.stream ready (pre ++ c :: q) = o.append (c :: q)) ∨
      prog.Reaches size over ready (pre ++ c :: u) := by
  induction prog generalizing ready pre with
  | done m => exact .inl ⟨.ok m ready pre, fun q => ⟨trivial, rfl⟩⟩
  | fail m => exact .inl ⟨.err m, fun q => ⟨trivial, rfl⟩⟩
  | timeout => exact .inl ⟨.timeout, fun q => ⟨trivial, rfl⟩⟩
  | op o m k ih =>
    unfold Prog.Fits Prog.stream Prog.Reaches
    have hb : ¬ (o.needsByte && !ready) = true := by
      intro hb
      simp only [Bool.and_eq_true, Bool.not_eq_true'] at hb
      rw [hsafe.1 hb.1] at hb
      simp at hb
    have hb' : (o.needsByte && !ready) = false := by simpa using hb
    rcases o.meets h0 hbig hfit hend with h | ⟨a, pre', h, hf', he'⟩ | ⟨h, hl⟩
    · refine .inl ⟨.err m, fun q => ⟨⟨(h q).1, by rw [(h q).2]; trivial⟩, ?_⟩⟩
      rw [if_neg hb, (h q).2]
      rfl
    · rcases ih a o.readyAfter (hsafe.2 a) hf' he' with ⟨r, hr⟩ | hr
      · refine .inl ⟨r, fun q => ⟨⟨(h q).1, by rw [(h q).2]; exact (hr q).1⟩, ?_⟩⟩
        rw [if_neg hb, (h q).2]
        exact (hr q).2
      · exact .inr ⟨hb', .inr ⟨(h u).1, a, pre' ++ c :: u, (h u).2, hr⟩⟩
    · exact .inr ⟨hb', .inl ⟨h, hl⟩⟩

/-- A decoder either comes to its end before the token, or reads it. -/
theorem decoder_comes {σ : Type} {size : Nat} (h5 : 5 ≤ size) (d : Nat → Prog σ) (hsafe : ∀ fuel, (d fuel).Safe false)
    (hends : ∀ n fuel, 2 * n < fuel → (d fuel).Ends n 1) (hle : ∀ fuel fuel', fuel ≤ fuel' → (d fuel).Le (d fuel')) {pre u : List UInt8} {c : UInt8}
    {over : Bool} (htok : (c = c!"\"" ∧ size ≤ stringEnd false u ∧ (over = true ↔ size < u.length)) ∨
      (isCharDigit c = true ∧ size ≤ (u.takeWhile numberChar).length + 1 ∧ (over = true ↔ size < u.length + 1)))
    (hfit : TokensFit size pre) (hend : TokenEnds pre c) :
    (∃ out : SDecoded σ, out ≠ .bad ∧ out ≠ .timeout ∧ ∀ q (p : Parser), p.Ok → size ≤ p.buffer.length → p.rest = pre ++ c :: q →
      ∃ enough, ∀ fuel, enough ≤ fuel → DecodesAs size p ((d fuel).run fuel p) (out.append (c :: q))) ∨
    ∃ F, ∀ fuel, F ≤ fuel → (d fuel).Reaches size over false (pre ++ c :: u) := by
  have hF : 2 * (pre.length + 1) < 2 * (pre.length + 1) + 1 := Nat.lt_succ_self _
  generalize 2 * (pre.length + 1) + 1 = F at hF
  rcases (d F).meets (size := size) (by omega) htok false (hsafe F) hfit hend with ⟨o, ho⟩ | hreach
  · left
    have hlen : (pre ++ [c]).length = pre.length + 1 := by simp
    have ht : o ≠ .timeout := by
      rintro rfl
      have := (hends (pre.length + 1) F hF false (pre ++ [c]) (by rw [hlen]; exact Nat.le_refl _)).1
      rw [(ho []).2] at this
      exact this rfl
    have hb : o ≠ .bad := by
      rintro rfl
      have := (hsafe F).stream (pre ++ [c]) (by simp)
      rw [(ho []).2] at this
      exact this rfl
    have happ : ∀ q, o.append q ≠ .timeout ∧ o.append q ≠ .bad := by
      intro q
      cases o with
      | ok m r s => exact ⟨by simp [SDecoded.append], by simp [SDecoded.append]⟩
      | err m => exact ⟨by simp [SDecoded.append], by simp [SDecoded.append]⟩
      | bad => exact absurd rfl hb
      | timeout => exact absurd rfl ht
    refine ⟨o, hb, ht, fun q p hp hbuf hrest => ⟨F + p.work + 1, fun fuel hf => ?_⟩⟩
    have hle := hle F fuel (by omega)
    obtain ⟨o1, o2⟩ := ho q
    have hfits := hle.fits false _ o1 (by rw [o2]; exact (happ _).1) (by rw [o2]; exact (happ _).2)
    have := Prog.run_agrees_read (by omega) (d fuel) fuel p false hp hbuf (by omega) (by rw [hrest]; exact hfits) (by simp)
    rw [hrest, hle.stream _ _ (by rw [o2]; exact (happ _).1), o2] at this
    exact this
  · exact .inr ⟨F, fun fuel hf => (hle F fuel hf).reaches _ _ hreach⟩

/-- A decoder either comes to its end before the token, or never. -/
theorem decoder_meets {σ : Type} {size : Nat} (h5 : 5 ≤ size) (d : Nat → Prog σ) (hsafe : ∀ fuel, (d fuel).Safe false)
    (hends : ∀ n fuel, 2 * n < fuel → (d fuel).Ends n 1) (hle : ∀ fuel fuel', fuel ≤ fuel' → (d fuel).Le (d fuel')) {pre t : List UInt8}
    (hfit : TokensFit size pre) (hend : ∀ c ∈ t.head?, TokenEnds pre c) (hbig : Oversized size t) :
    (∃ out : SDecoded σ, out ≠ .bad ∧ out ≠ .timeout ∧ ∀ q (p : Parser), p.Ok → size ≤ p.buffer.length → p.rest = pre ++ t.take 1 ++ q →
      ∃ enough, ∀ fuel, enough ≤ fuel → DecodesAs size p ((d fuel).run fuel p) (out.append (t.take 1 ++ q))) ∨
    ∀ p : Parser, p.Ok → p.buffer.length = size → p.rest = pre ++ t → ∀ fuel, (d fuel).run fuel p = .timeout := by
  -- the token, as the operations see it
  obtain ⟨c, u, rfl, htok⟩ : ∃ c u, t = c :: u ∧ ((c = c!"\"" ∧ size ≤ stringEnd false u ∧ (true = true ↔ size < u.length)) ∨
      (isCharDigit c = true ∧ size ≤ (u.takeWhile numberChar).length + 1 ∧ (true = true ↔ size < u.length + 1))) := by
    rcases hbig with ⟨⟨esc, h1⟩, h2⟩ | ⟨h1, h2⟩
    · obtain ⟨u, rfl, h3⟩ := long_of_string h1 (by omega)
      rw [List.length_cons] at h2
      exact ⟨_, u, rfl, .inl ⟨rfl, h3, by simp; omega⟩⟩
    · obtain ⟨c, u, rfl, h3, h4⟩ := long_of_number (by omega) h1 (by omega)
      rw [List.length_cons] at h2
      exact ⟨c, u, rfl, .inr ⟨h3, h4, by simp; omega⟩⟩
  rcases decoder_comes h5 d hsafe hends hle htok hfit (hend c rfl) with ⟨out, hb, ht, h⟩ | ⟨F, hreach⟩
  · exact .inl ⟨out, hb, ht, fun q p hp hbuf hrest => h q p hp hbuf (by simpa using hrest)⟩
  · right
    intro p hp hbuf hrest fuel
    refine Classical.byContradiction fun hne => ?_
    have hmax : fuel ≤ max fuel (F + p.work + 1) := Nat.le_max_left _ _
    have hmax' : F + p.work + 1 ≤ max fuel (F + p.work + 1) := Nat.le_max_right _ _
    generalize max fuel (F + p.work + 1) = big at hmax hmax'
    have h1 := (hle fuel big hmax).run hmax p hne
    have h2 := hreach big (by omega)
    rw [← hrest] at h2
    rcases (d big).run_reaches h5 big p false hp hbuf (by omega) (by simp) h2 with h3 | ⟨h3, _⟩
    · rw [h3] at h1
      exact hne h1.symm
    · cases h3

/-- If the token is at the end of the body, then a decoder comes to its end before the token, or what happens depends on the reader. -/
theorem decoder_edge {σ : Type} {size : Nat} (h5 : 5 ≤ size) (d : Nat → Prog σ) (hsafe : ∀ fuel, (d fuel).Safe false)
    (hends : ∀ n fuel, 2 * n < fuel → (d fuel).Ends n 1) (hle : ∀ fuel fuel', fuel ≤ fuel' → (d fuel).Le (d fuel')) {pre t : List UInt8}
    (hfit : TokensFit size pre) (hend : ∀ c ∈ t.head?, TokenEnds pre c) (hbig : Filling size t) :
    (∃ out : SDecoded σ, out ≠ .bad ∧ out ≠ .timeout ∧ ∀ q (p : Parser), p.Ok → size ≤ p.buffer.length → p.rest = pre ++ t.take 1 ++ q →
      ∃ enough, ∀ fuel, enough ≤ fuel → DecodesAs size p ((d fuel).run fuel p) (out.append (t.take 1 ++ q))) ∨
    ∀ p : Parser, p.Ok → p.buffer.length = size → p.rest = pre ++ t →
      ((∀ fuel, (d fuel).run fuel p = .timeout) ∨ ∃ m p' enough, ∀ fuel, enough ≤ fuel → (d fuel).run fuel p = .err m p') ∧
      (p.input.idle = false → ∃ m p' enough, ∀ fuel, enough ≤ fuel → (d fuel).run fuel p = .err m p') ∧
      (p.Quiet → ∀ fuel, (d fuel).run fuel p = .timeout) := by
  obtain ⟨c, u, rfl, htok⟩ : ∃ c u, t = c :: u ∧ ((c = c!"\"" ∧ size ≤ stringEnd false u ∧ (false = true ↔ size < u.length)) ∨
      (isCharDigit c = true ∧ size ≤ (u.takeWhile numberChar).length + 1 ∧ (false = true ↔ size < u.length + 1))) := by
    rcases hbig with ⟨⟨esc, h1⟩, h2⟩ | ⟨h1, h2⟩
    · obtain ⟨u, rfl, h3⟩ := long_of_string (size := size) (s := t) (esc := esc) (by rw [List.take_of_length_le (by omega)]; exact h1) (by omega)
      rw [List.length_cons] at h2
      exact ⟨_, u, rfl, .inl ⟨rfl, h3, by simp; omega⟩⟩
    · obtain ⟨c, u, rfl, h3, h4⟩ := long_of_number (size := size) (s := t) (by omega) (by rw [List.take_of_length_le (by omega)]; exact h1) (by omega)
      rw [List.length_cons] at h2
      exact ⟨c, u, rfl, .inr ⟨h3, h4, by simp; omega⟩⟩
  rcases decoder_comes h5 d hsafe hends hle htok hfit (hend c rfl) with ⟨out, hb, ht, h⟩ | ⟨F, hreach⟩
  · exact .inl ⟨out, hb, ht, fun q p hp hbuf hrest => h q p hp hbuf (by simpa using hrest)⟩
  · refine .inr fun p hp hbuf hrest => ?_
    rw [← hrest] at hreach
    -- an error is final
    have final : ∀ big m p', (d big).run big p = .err m p' → ∀ fuel, big ≤ fuel → (d fuel).run fuel p = .err m p' := fun big m p' h fuel hf => by
      rw [← h]
      exact (hle big fuel hf).run hf p (by rw [h]; simp)
    refine ⟨?_, fun hi => ?_, fun hq fuel => ?_⟩
    · by_cases hall : ∀ fuel, (d fuel).run fuel p = .timeout
      · exact .inl hall
      · obtain ⟨fuel, hne⟩ := Classical.not_forall.mp hall
        refine .inr ?_
        have hmax : fuel ≤ max fuel (F + p.work + 1) := Nat.le_max_left _ _
        have hmax' : F + p.work + 1 ≤ max fuel (F + p.work + 1) := Nat.le_max_right _ _
        generalize max fuel (F + p.work + 1) = big at hmax hmax'
        have h1 := (hle fuel big hmax).run hmax p hne
        rcases (d big).run_reaches h5 big p false hp hbuf (by omega) (by simp) (hreach big (by omega)) with h3 | ⟨_, m, p', h4⟩
        · rw [h3] at h1
          exact absurd h1.symm hne
        · exact ⟨m, p', big, final big m p' h4⟩
    · obtain ⟨m, p', h⟩ := (d (F + p.work + 1)).run_told h5 (F + p.work + 1) p false hp hi hbuf (by omega) (by simp) (hreach _ (by omega))
      exact ⟨m, p', _, final _ m p' h⟩
    · refine Classical.byContradiction fun hne => ?_
      have hmax : fuel ≤ max fuel (F + p.work + 1) := Nat.le_max_left _ _
      have hmax' : F + p.work + 1 ≤ max fuel (F + p.work + 1) := Nat.le_max_right _ _
      generalize max fuel (F + p.work + 1) = big at hmax hmax'
      have h1 := (hle fuel big hmax).run hmax p hne
      rw [(d big).run_stuck h5 big p false hp hq hbuf (by omega) (by simp) (hreach big (by omega))] at h1
      exact hne h1.symm

/-! ## The first long token of a body -/

/-- Where the current token of a body began. -/
theorem current_token (l : List UInt8) :
    (∀ e n, LexState.between.after l = .string e n → ∃ a tok, l = a ++ tok ∧ tok.length = n + 1 ∧ LexState.between.after tok = .string e n ∧
      ∀ c ∈ tok.head?, TokenEnds a c) ∧
    (∀ n, LexState.between.after l = .number n → ∃ a tok, l = a ++ tok ∧ tok.length = n ∧ LexState.between.after tok = .number n ∧
      ∀ c ∈ tok.head?, TokenEnds a c) := by
  induction l using list_snoc_induction
  · exact ⟨fun e n h => by simp [LexState.after] at h, fun n h => by simp [LexState.after] at h⟩
  · rename_i l c ih
    have hsnoc : ∀ st : LexState, st.after (l ++ [c]) = (st.after l).next c := fun st => LexState.after_append st l [c]
    have hsnoc' : ∀ (st : LexState) (tok : List UInt8), st.after (tok ++ [c]) = (st.after tok).next c := fun st tok => LexState.after_append st tok [c]
    rw [hsnoc]
    have hhead : ∀ (tok : List UInt8), tok.length ≠ 0 → (tok ++ [c]).head? = tok.head? := by
      intro tok h
      cases tok with
      | nil => exact absurd rfl h
      | cons x tok => rfl
    -- a token begins
    have begins : TokenEnds l c → ∃ a tok, l ++ [c] = a ++ tok ∧ tok = [c] ∧ ∀ x ∈ tok.head?, TokenEnds a x := by
      intro h
      refine ⟨l, [c], rfl, rfl, fun x hx => ?_⟩
      simp only [List.head?_cons, Option.mem_def, Option.some.injEq] at hx
      rw [← hx]
      exact h
    have one : LexState.between.after [c] = LexState.start c := rfl
    have hstart : TokenEnds l c → (LexState.between.after l).next c = LexState.start c := by
      rintro (h | ⟨⟨n, h⟩, hc⟩)
      · rw [h]; rfl
      · rw [h]
        simp only [LexState.next]
        rw [if_neg hc]
    -- the next state is that at the beginning of a token, or that inside of one
    have fresh : TokenEnds l c →
        (∀ e n, (LexState.between.after l).next c = .string e n → ∃ a tok, l ++ [c] = a ++ tok ∧ tok.length = n + 1 ∧
          LexState.between.after tok = .string e n ∧ ∀ x ∈ tok.head?, TokenEnds a x) ∧
        (∀ n, (LexState.between.after l).next c = .number n → ∃ a tok, l ++ [c] = a ++ tok ∧ tok.length = n ∧
          LexState.between.after tok = .number n ∧ ∀ x ∈ tok.head?, TokenEnds a x) := by
      intro h
      rw [hstart h]
      obtain ⟨a, tok, h1, rfl, h3⟩ := begins h
      constructor
      · intro e n hs
        refine ⟨a, [c], h1, ?_, by rw [one, hs], h3⟩
        have := start_weight c
        rw [hs] at this
        simp only [LexState.weight] at this
        simp only [List.length_cons, List.length_nil]
        omega
      · intro n hs
        refine ⟨a, [c], h1, ?_, by rw [one, hs], h3⟩
        have h4 : n = 1 := by
          unfold LexState.start at hs
          split at hs
          · cases hs
          · split at hs
            · injection hs with hs
              exact hs.symm
            · split at hs
              · cases hs
              · split at hs <;> cases hs
        rw [h4]
        rfl
    cases hst : LexState.between.after l with
    | between =>
      have := fresh (.inl hst)
      rw [hst] at this
      exact this
    | word k =>
      refine ⟨fun e n h => ?_, fun n h => ?_⟩
      all_goals
        simp only [LexState.next] at h
        split at h <;> cases h
    | number k =>
      by_cases hc : NumberChar c
      · simp only [LexState.next]
        rw [if_pos hc]
        refine ⟨fun e n h => (by cases h), fun n h => ?_⟩
        injection h with h
        obtain ⟨a, tok, h1, h2, h3, h4⟩ := ih.2 k hst
        have hk : 0 < k := by
          cases tok with
          | nil => simp [LexState.after] at h3
          | cons x tok => rw [← h2]; simp
        refine ⟨a, tok ++ [c], by rw [h1, List.append_assoc], by simp; omega, ?_, by rw [hhead tok (by omega)]; exact h4⟩
        rw [hsnoc', h3, ← h]
        simp only [LexState.next]
        rw [if_pos hc]
      · have := fresh (.inr ⟨⟨k, hst⟩, hc⟩)
        rw [hst] at this
        exact this
    | string e0 k =>
      obtain ⟨a, tok, h1, h2, h3, h4⟩ := ih.1 e0 k hst
      have key : ∀ e n, (LexState.string e0 k).next c = .string e n → n = k + 1 := by
        intro e n h
        cases e0 with
        | true =>
          injection h with _ h
          exact h.symm
        | false =>
          simp only [LexState.next] at h
          split at h
          · injection h with _ h
            exact h.symm
          · split at h
            · cases h
            · injection h with _ h
              exact h.symm
      refine ⟨fun e n h => ?_, fun n h => ?_⟩
      · refine ⟨a, tok ++ [c], by rw [h1, List.append_assoc], by have := key e n h; simp; omega, ?_, by rw [hhead tok (by omega)]; exact h4⟩
        rw [hsnoc', h3]
        exact h
      · cases e0 with
        | true => cases h
        | false =>
          simp only [LexState.next] at h
          split at h
          · cases h
          · split at h <;> cases h

theorem fits_prefix {size : Nat} {st : LexState} {a b : List UInt8} (h : Spec.FitsFrom size st (a ++ b)) : Spec.FitsFrom size st a := by
  induction a generalizing st with
  | nil => trivial
  | cons c a ih => exact ⟨h.1, ih h.2⟩

/-- A body with a token that does not fit: the first one of them. -/
theorem first_long {size : Nat} (h2 : 2 ≤ size) {data : List UInt8} (h : ¬ TokensFit size data) :
    ∃ pre t, data = pre ++ t ∧ TokensFit size pre ∧ (∀ c ∈ t.head?, TokenEnds pre c) ∧ (Oversized size t ∨ Filling size t) := by
  -- the first byte at which a token is too long
  obtain ⟨l, c, rest, hd, hl, hbig⟩ : ∃ l c rest, data = l ++ c :: rest ∧ TokensFit size l ∧
      ¬ ((LexState.between.after l).next c).size < size := by
    have key : ∀ (data : List UInt8) (st : LexState), ¬ Spec.FitsFrom size st data →
        ∃ l c rest, data = l ++ c :: rest ∧ Spec.FitsFrom size st l ∧ ¬ ((st.after l).next c).size < size := by
      intro data
      induction data with
      | nil => intro st h; exact absurd trivial h
      | cons c data ih =>
        intro st h
        by_cases h1 : (st.next c).size < size
        · obtain ⟨l, x, rest, g1, g2, g3⟩ := ih (st.next c) (fun hh => h ⟨h1, hh⟩)
          exact ⟨c :: l, x, rest, by rw [g1]; rfl, ⟨h1, g2⟩, g3⟩
        · exact ⟨[], c, data, rfl, trivial, h1⟩
    exact key data .between h
  have hsize : (LexState.between.after l).size < size := by
    have key : ∀ (l : List UInt8) (st : LexState), Spec.FitsFrom size st l → st.size < size → (st.after l).size < size := by
      intro l
      induction l with
      | nil => intro st _ h; exact h
      | cons c l ih => intro st h _; exact ih (st.next c) h.2 h.1
    exact key l .between hl (by simp only [LexState.size]; omega)
  have hnext : ((LexState.between.after l).next c).size = size ∧ ((∃ e, (LexState.between.after l).next c = .string e size) ∨ (LexState.between.after l).next c = .number size) := by
    have hstart : (LexState.start c).size ≤ 1 := by
      unfold LexState.start
      repeat' split
      all_goals simp [LexState.size]
    cases hst : LexState.between.after l with
    | between =>
      rw [hst] at hbig
      exact absurd (Nat.lt_of_le_of_lt hstart (by omega)) hbig
    | word k =>
      rw [hst] at hbig
      refine absurd ?_ hbig
      simp only [LexState.next]
      split <;> (simp only [LexState.size]; omega)
    | number k =>
      rw [hst] at hbig hsize
      simp only [LexState.next, LexState.size] at hbig hsize ⊢
      by_cases hc : NumberChar c
      · rw [if_pos hc] at hbig ⊢
        simp only at hbig ⊢
        have : k + 1 = size := by omega
        exact ⟨this, .inr (by rw [this])⟩
      · rw [if_neg hc] at hbig
        exact absurd (Nat.lt_of_le_of_lt hstart (by omega)) hbig
    | string e k =>
      rw [hst] at hbig hsize
      simp only [LexState.size] at hsize
      have key : ∀ e', (LexState.string e k).next c = .string e' (k + 1) →
          ((LexState.string e k).next c).size = size ∧ ((∃ x, (LexState.string e k).next c = .string x size) ∨ (LexState.string e k).next c = .number size) := by
        intro e' he
        rw [he] at hbig ⊢
        simp only [LexState.size] at hbig ⊢
        have : k + 1 = size := by omega
        exact ⟨this, .inl ⟨e', by rw [this]⟩⟩
      cases e with
      | true => exact key false rfl
      | false =>
        by_cases hb : c = c!"\\"
        · exact key true (by simp [LexState.next, hb])
        · by_cases hq : c = c!"\""
          · rw [show (LexState.string false k).next c = .between by simp only [LexState.next]; rw [if_neg hb, if_pos hq]] at hbig
            simp only [LexState.size] at hbig
            omega
          · exact key false (by simp only [LexState.next]; rw [if_neg hb, if_neg hq])
  have hafter : LexState.between.after (l ++ [c]) = (LexState.between.after l).next c := LexState.after_append _ l [c]
  have hd' : data = (l ++ [c]) ++ rest := by rw [hd]; simp
  -- the token that ends with this byte
  have finish : ∀ a tok, l ++ [c] = a ++ tok → 0 < tok.length → TokensFit size a := by
    intro a tok he ht
    obtain ⟨b, hb⟩ : ∃ b, l = a ++ b := by
      refine ⟨l.drop a.length, ?_⟩
      have h1 := congrArg List.length he
      simp only [List.length_append, List.length_cons, List.length_nil] at h1
      have h2 := congrArg (List.take a.length) he
      rw [List.take_append_of_le_length (by omega), List.take_left] at h2
      conv => lhs; rw [← List.take_append_drop a.length l, h2]
    rw [hb] at hl
    exact fits_prefix hl
  rcases hnext.2 with ⟨e, hs⟩ | hs
  · rw [← hafter] at hs
    obtain ⟨a, tok, g1, g2, g3, g4⟩ := (current_token _).1 e size hs
    refine ⟨a, tok ++ rest, by rw [hd', g1, List.append_assoc], finish a tok g1 (by omega), ?_, ?_⟩
    · cases tok with
      | nil => simp at g2
      | cons x tok => exact g4
    · cases rest with
      | nil =>
        rw [List.append_nil]
        exact .inr (.inl ⟨⟨e, g3⟩, g2⟩)
      | cons y rest =>
        refine .inl (.inl ⟨⟨e, ?_⟩, by simp; omega⟩)
        rw [← g2, List.take_left]
        rw [g2] at *
        exact g3
  · rw [← hafter] at hs
    obtain ⟨a, tok, g1, g2, g3, g4⟩ := (current_token _).2 size hs
    refine ⟨a, tok ++ rest, by rw [hd', g1, List.append_assoc], finish a tok g1 (by omega), ?_, ?_⟩
    · cases tok with
      | nil => simp at g2; omega
      | cons x tok => exact g4
    · cases rest with
      | nil =>
        rw [List.append_nil]
        exact .inr (.inr ⟨g3, g2⟩)
      | cons y rest =>
        refine .inl (.inr ⟨?_, by simp; omega⟩)
        conv => lhs; rw [← g2, List.take_left]
        exact g3

end Verif
