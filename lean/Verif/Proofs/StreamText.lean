import Verif.Proofs.ErrorText

/-!
# The texts of errors on a stream of bytes
-/

namespace Verif

open Spec

/-! ## How the reader ends -/

/-- The text of the error when there is no more data. -/
def endingText (readErr : Str) (failing : Bool) : Str := if failing then b!"buffer more data: " ++ readErr else b!"EOF"

/-- The reader ends in this way, and the parser has not seen anything else. -/
structure Parser.Ends (failing : Bool) (p : Parser) : Prop where
  input : p.input.failing = failing
  eof : p.eof = true → failing = false

/-- After an operation the reader still ends in this way; `last`: an error is because the reader has ended. -/
def Run.Ends {α : Type} (failing last : Bool) : Run α → Prop
  | .ok _ p => p.Ends failing
  | .err p => p.Ends failing ∧ (last = true → p.eof = !failing)
  | _ => True

theorem endText_eq {readErr : Str} {failing : Bool} {p : Parser} (h : p.eof = !failing) : endText readErr p = endingText readErr failing := by
  unfold endText endingText
  rw [h]
  cases failing <;> rfl

namespace Parser

theorem bufferMore_ends {failing : Bool} {p : Parser} (h : p.Ends failing) : (p.bufferMore).Ends failing true := by
  have hread : ∀ (r : Reader) n, (r.read n).2.2.failing = r.failing ∧ ((r.read n).2.1 = .eof → r.failing = false) ∧ ((r.read n).2.1 = .fail → r.failing = true) := by
    intro r n
    have he : (r.endErr = .eof → r.failing = false) ∧ (r.endErr = .fail → r.failing = true) := by
      unfold Reader.endErr
      cases r.failing <;> simp
    unfold Reader.read
    split
    · simp
    · split
      · simp only
        split
        · exact ⟨rfl, he⟩
        · simp
      · split
        · exact ⟨rfl, he⟩
        · simp
  have key : ∀ q : Parser, q.Ends failing → q.eof = false →
      Run.Ends failing true (if q.head > q.buffer.length then Run.panic
        else
          let (got, e, input) := q.input.read (q.buffer.length - q.head)
          let q := { q with input, buffer := q.buffer.take q.head ++ got ++ q.buffer.drop (q.head + got.length) }
          match e with
          | .eof =>
            let q := { q with eof := true }
            if got.length = 0 then .err q else .ok () { q with head := q.head + got.length }
          | .fail => .err q
          | .nil => .ok () { q with head := q.head + got.length }) := by
    intro q hq hqe
    split
    · trivial
    · obtain ⟨h1, h2, h3⟩ := hread q.input (q.buffer.length - q.head)
      rcases hr : q.input.read (q.buffer.length - q.head) with ⟨got, e, input⟩
      rw [hr] at h1 h2 h3
      simp only at h1 h2 h3 ⊢
      rw [hq.input] at h1 h2 h3
      cases e with
      | nil => exact ⟨h1, hq.eof⟩
      | eof =>
        have hf := h2 rfl
        simp only
        split
        · exact ⟨⟨h1, fun _ => hf⟩, fun _ => by simp [hf]⟩
        · exact ⟨h1, fun _ => hf⟩
      | fail =>
        have hf := h3 rfl
        exact ⟨⟨h1, hq.eof⟩, fun _ => by simp only [hqe, hf]; rfl⟩
  unfold bufferMore
  split
  · rename_i he
    exact ⟨h, fun _ => by rw [he, h.eof he]; rfl⟩
  · rename_i he
    have he : p.eof = false := by simpa using he
    by_cases ht : p.tail > 0
    · simp only [if_pos ht]
      by_cases hc : p.tail ≤ p.head ∧ p.head ≤ p.buffer.length ∧ p.available ≤ p.buffer.length
      · simp only [if_pos hc]
        exact key { p with buffer := (p.buffer.drop p.tail).take p.available ++ p.buffer.drop p.available, tail := 0, head := p.available } ⟨h.input, h.eof⟩ he
      · simp only [if_neg hc]
        trivial
    · simp only [if_neg ht]
      exact key _ h he

theorem skipWhitespace_ends {failing : Bool} (fuel : Nat) {p : Parser} (h : p.Ends failing) : (skipWhitespace fuel p).Ends failing true := by
  induction fuel generalizing p with
  | zero => trivial
  | succ fuel ih =>
    unfold skipWhitespace
    split
    · split
      · trivial
      · split
        · exact ih ⟨h.input, h.eof⟩
        · exact h
    · have := bufferMore_ends h
      split
      · rename_i hb
        rw [hb] at this
        exact ih this
      · exact this

theorem readNumberLoop_ends {failing : Bool} (fuel : Nat) {p : Parser} (n : Nat) (h : p.Ends failing) : (readNumberLoop fuel p n).Ends failing true := by
  induction fuel generalizing p n with
  | zero => trivial
  | succ fuel ih =>
    unfold readNumberLoop
    split
    · split
      · trivial
      · split
        · split
          · trivial
          · exact ⟨h.input, h.eof⟩
        · exact ih _ h
    · have := bufferMore_ends h
      split
      · rename_i hb
        rw [hb] at this
        exact ih _ this
      · rename_i hb
        rw [hb] at this
        exact this
      · trivial
      · trivial

theorem require_ends {failing : Bool} (fuel : Nat) {p : Parser} (n : Nat) (h : p.Ends failing) : (require fuel p n).Ends failing true := by
  induction fuel generalizing p with
  | zero => trivial
  | succ fuel ih =>
    unfold require
    split
    · split
      · trivial
      · rename_i q hg
        have hq : q.Ends failing := by
          unfold grow at hg
          simp only at hg
          split at hg
          · split at hg
            · cases hg
            · injection hg with hg
              rw [← hg]
              exact ⟨h.input, h.eof⟩
          · injection hg with hg
            rw [← hg]
            exact h
        have := bufferMore_ends hq
        split
        · rename_i hb
          rw [hb] at this
          exact ih this
        · exact this
    · exact h

theorem finishString_ends {failing : Bool} {p : Parser} (n : Nat) (escaped : Bool) (h : p.Ends failing) : (finishString p n escaped).Ends failing false := by
  unfold finishString
  split
  · trivial
  · simp only
    split
    · split
      · exact ⟨h.input, h.eof⟩
      · exact ⟨⟨h.input, h.eof⟩, by simp⟩
      · trivial
      · trivial
    · exact ⟨h.input, h.eof⟩

theorem readStringLoop_ends {failing : Bool} (fuel : Nat) {p : Parser} (n : Nat) (escapeNext escaped : Bool) (h : p.Ends failing) :
    (readStringLoop fuel p n escapeNext escaped).Ends failing false := by
  induction fuel generalizing p n escapeNext escaped with
  | zero => trivial
  | succ fuel ih =>
    unfold readStringLoop
    split
    · split
      · trivial
      · split
        · exact ih _ _ _ h
        · split
          · exact ih _ _ _ h
          · split
            · exact finishString_ends n escaped h
            · exact ih _ _ _ h
    · have := bufferMore_ends h
      split
      · rename_i hb
        rw [hb] at this
        exact ih _ _ _ this
      · rename_i hb
        rw [hb] at this
        exact ⟨this.1, by simp⟩
      · trivial
      · trivial

end Parser

theorem Op.run_ends {failing : Bool} (o : Op) (fuel : Nat) {p : Parser} (h : p.Ends failing) : (o.run fuel p).Ends failing false := by
  have weaken : ∀ {α : Type} {r : Run α}, r.Ends failing true → r.Ends failing false := by
    intro α r hr
    cases r with
    | err p => exact ⟨hr.1, by simp⟩
    | _ => exact hr
  cases o with
  | skipWhitespace => exact weaken (Parser.skipWhitespace_ends fuel h)
  | current =>
    simp only [Op.run]
    split
    · trivial
    · exact h
  | consume t =>
    simp only [Op.run]
    unfold Parser.consume
    split
    · trivial
    · split
      · exact ⟨h, by simp⟩
      · exact ⟨h.input, h.eof⟩
  | readString =>
    simp only [Op.run]
    unfold Parser.readString
    split
    · trivial
    · split
      · exact ⟨h, by simp⟩
      · exact Parser.readStringLoop_ends fuel _ _ _ ⟨h.input, h.eof⟩
  | readNumber =>
    simp only [Op.run]
    unfold Parser.readNumber
    split
    · trivial
    · split
      · exact ⟨h, by simp⟩
      · exact weaken (Parser.readNumberLoop_ends fuel _ h)
  | readWord w =>
    simp only [Op.run]
    unfold Parser.readN
    have := Parser.require_ends fuel w.length h
    split
    · rename_i hb
      rw [hb] at this
      split
      · trivial
      · split
        · exact ⟨this, by simp⟩
        · split
          · trivial
          · exact ⟨this.input, this.eof⟩
    · rename_i hb
      rw [hb] at this
      exact weaken this
    · trivial
    · trivial

/-! ## Texts of operations on a stream -/

/-- The text for the first escape that cannot be decoded. -/
def escapeText : Str → Str
  | [] => []
  | c :: rest =>
    if c ≠ c!"\\" then escapeText rest
    else match rest with
      | [] => b!"premature end of input"
      | e :: rest =>
        if e ≠ c!"u" then escapeText rest
        else match rest with
          | h1 :: h2 :: h3 :: h4 :: rest =>
            match firstNoHex [h1, h2, h3, h4] with
            | some c => b!"expected hexadecimal character but got '" ++ charText c ++ b!"'"
            | none => escapeText rest
          | _ => b!"premature end of input while decoding unicode character"

/-- The text of an operation that fails on a stream. -/
def Op.streamText (ending : Str) : Op → Str → Str
  | .skipWhitespace, _ => ending
  | .consume t, c :: _ => wrongTypeText t.type c
  | .readString, c :: s =>
    if c ≠ c!"\"" then wrongTypeText .string c
    else match scanString false s with
      | none => ending
      | some (body, _) => escapeText body
  | .readNumber, c :: _ => if !isCharDigit c then wrongTypeText .number c else ending
  | .readWord w, c :: s => if (c :: s).length < w.length then b!"require(" ++ decimalDigits 20 w.length ++ b!"): " ++ ending else wrongTypeText w.type c
  | _, _ => []

theorem firstNoHex_iff (h1 h2 h3 h4 : UInt8) : firstNoHex [h1, h2, h3, h4] = none ↔ hexRune [h1, h2, h3, h4] ≠ none := by
  unfold firstNoHex hexRune
  simp only [List.find?_eq_none, List.mem_cons, List.not_mem_nil, or_false, forall_eq_or_imp, forall_eq, List.foldl_cons, List.foldl_nil, Option.bind_some]
  cases hexDigit? h1 <;> cases hexDigit? h2 <;> cases hexDigit? h3 <;> cases hexDigit? h4 <;> simp

/-- The text for an escape is the one that the loop stops at. -/
theorem unescapeLoop_text (fuel : Nat) (st : Unescape) (hn : st.n ≤ st.idx) (hi : st.idx ≤ st.buf.length) (hf : st.buf.length - st.idx < fuel) {st' : Unescape}
    (h : unescapeLoop fuel st = some (.err st')) : st'.errorText = escapeText (st.buf.drop st.idx) := by
  induction fuel generalizing st with
  | zero => omega
  | succ fuel ih =>
    obtain ⟨buf, n, idx⟩ := st
    simp only at hn hi hf ⊢
    have key : ∀ (cs : List UInt8) (idx' : Nat), n + cs.length ≤ idx' → idx < idx' → idx' ≤ buf.length →
        Unescape.step ⟨buf, n, idx⟩ =
          .continue { buf := buf.take n ++ cs ++ buf.drop (n + cs.length), n := n + cs.length, idx := idx' } →
        st'.errorText = escapeText (buf.drop idx') := by
      intro cs idx' h1 h2 h3 hs
      obtain ⟨w1, w2, w3⟩ := unescape_written cs h1 h3
      rw [unescapeLoop, hs] at h
      have := ih { buf := buf.take n ++ cs ++ buf.drop (n + cs.length), n := n + cs.length, idx := idx' } h1
        (by simp only [w1]; exact h3) (by simp only [w1]; omega) h
      simp only [w1, w2, w3] at this
      exact this
    rcases hd : buf.drop idx with _ | ⟨c, rest⟩
    · have hl : idx = buf.length := by
        have := congrArg List.length hd
        simp at this
        omega
      have hg : buf[idx]? = none := by simp [hl]
      have hs : Unescape.step ⟨buf, n, idx⟩ = .done ⟨buf, n, idx⟩ := by
        unfold Unescape.step
        simp only [hg]
      rw [unescapeLoop, hs] at h
      simp at h
    · have hg : buf[idx]? = some c := by
        rw [← List.head?_drop, hd]; rfl
      have hlen : buf.length = idx + 1 + rest.length := by
        have := congrArg List.length hd
        simp at this
        omega
      have hd1 : buf.drop (idx + 1) = rest := by
        rw [← List.drop_drop, hd]; rfl
      have stop : Unescape.step ⟨buf, n, idx⟩ = .err ⟨buf, n, idx⟩ → st' = ⟨buf, n, idx⟩ := by
        intro hs
        simp only [unescapeLoop, hs, Option.some.injEq, UnescapeResult.err.injEq] at h
        exact h.symm
      unfold escapeText
      by_cases hc : c = c!"\\"
      · rw [if_neg (by simp [hc])]
        rcases rest with _ | ⟨e, rest⟩
        · have hs : Unescape.step ⟨buf, n, idx⟩ = .err ⟨buf, n, idx⟩ := by
            unfold Unescape.step
            simp only [hg, hc]
            rw [if_neg (by simp), if_pos (by simp at hlen ⊢; omega)]
          rw [stop hs]
          unfold Unescape.errorText
          rw [if_pos (by simp at hlen ⊢; omega)]
        · simp only [List.length_cons] at hlen
          have hg1 : buf[idx + 1]? = some e := by
            rw [← List.head?_drop, hd1]; rfl
          have hd2 : buf.drop (idx + 2) = rest := by
            rw [show idx + 2 = idx + 1 + 1 from rfl, ← List.drop_drop, hd1]; rfl
          by_cases he : e = c!"u"
          · simp only [if_neg (show ¬ e ≠ c!"u" by simp [he])]
            by_cases hsh : idx + 1 + 4 ≥ buf.length
            · have hs : Unescape.step ⟨buf, n, idx⟩ = .err ⟨buf, n, idx⟩ := by
                unfold Unescape.step
                simp only [hg, hc, hg1, he]
                rw [if_neg (by simp), if_neg (by simp; omega), if_neg (by simp), if_pos hsh]
              rw [stop hs]
              unfold Unescape.errorText
              rw [if_neg (by simp only; omega), if_pos hsh]
              rcases rest with _ | ⟨h1, _ | ⟨h2, _ | ⟨h3, _ | ⟨h4, rest⟩⟩⟩⟩ <;> simp only [List.length_nil, List.length_cons] at hlen <;> try rfl
              omega
            · rcases rest with _ | ⟨h1, _ | ⟨h2, _ | ⟨h3, _ | ⟨h4, rest⟩⟩⟩⟩ <;> simp only [List.length_nil, List.length_cons] at hlen <;>
                try omega
              have hd6 : buf.drop (idx + 1 + 1 + 4) = rest := by
                rw [← List.drop_drop, show idx + 1 + 1 = idx + 2 from rfl, hd2]; rfl
              have ht : (buf.drop (idx + 1 + 1)).take 4 = [h1, h2, h3, h4] := by
                rw [show idx + 1 + 1 = idx + 2 from rfl, hd2]; rfl
              have hs0 : Unescape.step ⟨buf, n, idx⟩ = match hexRune [h1, h2, h3, h4] with
                  | none => .err ⟨buf, n, idx⟩
                  | some r => if n + 4 > buf.length then .panic
                    else .continue { buf := writeAt buf n (encodeRune r), n := n + (encodeRune r).length, idx := idx + 1 + 1 + 4 } := by
                unfold Unescape.step
                simp only [hg, hc, hg1, he]
                rw [if_neg (by simp), if_neg (by simp; omega), if_neg (by simp), if_neg (by omega), if_neg (by omega), ht]
                rfl
              simp only
              rcases hx : hexRune [h1, h2, h3, h4] with _ | r
              · rw [hx] at hs0
                rw [stop hs0]
                unfold Unescape.errorText
                rw [if_neg (by simp only; omega), if_neg hsh]
                simp only
                rw [ht]
                rcases hno : firstNoHex [h1, h2, h3, h4] with _ | c'
                · exact absurd hx ((firstNoHex_iff ..).mp hno)
                · rfl
              · rw [hx] at hs0
                rw [(firstNoHex_iff ..).mpr (by rw [hx]; simp)]
                have hl3 := encodeRune_length r
                simp only at hs0 ⊢
                rw [if_neg (by omega), writeAt_eq _ _ _ (by omega)] at hs0
                have := key (encodeRune r) (idx + 1 + 1 + 4) (by omega) (by omega) (by omega) hs0
                rw [hd6] at this
                exact this
          · have hs : Unescape.step ⟨buf, n, idx⟩ = .continue { buf := buf.take n ++ [e] ++ buf.drop (n + 1), n := n + 1, idx := idx + 2 } := by
              unfold Unescape.step
              simp only [hg, hc, hg1]
              rw [if_neg (by simp), if_neg (by simp; omega), if_pos he, Unescape.append_fits _ _ (by simp; omega)]
            simp only [if_pos he]
            have := key [e] (idx + 2) (by simp; omega) (by omega) (by omega) hs
            rw [hd2] at this
            exact this
      · have hs : Unescape.step ⟨buf, n, idx⟩ = .continue { buf := buf.take n ++ [c] ++ buf.drop (n + 1), n := n + 1, idx := idx + 1 } := by
          unfold Unescape.step
          simp only [hg]
          rw [if_pos hc, Unescape.append_fits _ _ (by simp; omega)]
        rw [if_pos hc]
        have := key [c] (idx + 1) (by simp; omega) (by omega) (by omega) hs
        rw [hd1] at this
        exact this

theorem decodeErrorText_eq {body : Str} (h : unescape body = none) : decodeErrorText body = escapeText body := by
  have hd := unescapeLoop_spec (body.length + 1) { buf := body, n := 0, idx := 0 } (Nat.le_refl _) (Nat.zero_le _) (by simp)
  simp only [List.drop_zero, h] at hd
  obtain ⟨st, e1, _⟩ := hd
  unfold decodeErrorText decodeStringInPlace
  rw [e1]
  have := unescapeLoop_text (body.length + 1) { buf := body, n := 0, idx := 0 } (Nat.le_refl _) (Nat.zero_le _) (by simp) e1
  simpa using this

namespace Parser

theorem readStringLoop_text {size : Nat} {readErr : Str} {failing : Bool} (fuel : Nat) (p : Parser) (n : Nat) (escapeNext escaped : Bool) (h : p.Ok) (hends : p.Ends failing)
    (hs : size ≤ p.buffer.length) (hn : n ≤ p.available) (hf : p.work < fuel + n)
    (hfit : n + stringEnd escapeNext (p.rest.drop n) < size) :
    match scanString escapeNext (p.rest.drop n) with
      | none => readStringLoopText readErr fuel p n escapeNext escaped = endingText readErr failing
      | some (body, _) => unescape (p.rest.take n ++ body) = none → readStringLoopText readErr fuel p n escapeNext escaped = escapeText (p.rest.take n ++ body) := by
  induction fuel generalizing p n escapeNext escaped with
  | zero =>
    have : p.available ≤ p.work := by unfold work; omega
    omega
  | succ fuel ih =>
    unfold readStringLoopText
    by_cases hlt : n < p.available
    · simp only [if_pos hlt]
      obtain ⟨c, hc⟩ := buffer_get h hlt
      have hr := rest_get h hlt
      rw [hc] at hr
      have hd := drop_cons_of_get hr.symm
      have htk : p.rest.take (n + 1) = p.rest.take n ++ [c] := by
        rw [List.take_add_one, ← hr]; rfl
      simp only [hc]
      rw [hd] at hfit ⊢
      have go : ∀ esc' has', n + 1 + stringEnd esc' (p.rest.drop (n + 1)) < size →
          match (scanString esc' (p.rest.drop (n + 1))).map fun r => (c :: r.1, r.2) with
            | none => readStringLoopText readErr fuel p (n + 1) esc' has' = endingText readErr failing
            | some (body, _) => unescape (p.rest.take n ++ body) = none → readStringLoopText readErr fuel p (n + 1) esc' has' = escapeText (p.rest.take n ++ body) := by
        intro esc' has' hf'
        have := ih p (n + 1) esc' has' h hends hs hlt (by omega) hf'
        rcases hsc : scanString esc' (p.rest.drop (n + 1)) with _ | ⟨body, s⟩
        · rw [hsc] at this
          exact this
        · rw [hsc] at this
          simp only [htk, List.append_assoc, List.singleton_append] at this
          exact this
      cases escapeNext with
      | true =>
        simp only [if_true]
        have hf2 : n + 1 + stringEnd false (p.rest.drop (n + 1)) < size := by
          simp only [stringEnd] at hfit
          omega
        exact go false escaped hf2
      | false =>
        simp only [Bool.false_eq_true, if_false]
        by_cases hb : c = c!"\\"
        · simp only [if_pos hb]
          have hf2 : n + 1 + stringEnd true (p.rest.drop (n + 1)) < size := by
            simp only [stringEnd, if_pos hb] at hfit
            omega
          have := go true true hf2
          rw [hb] at this ⊢
          simpa only [scanString, if_true] using this
        · simp only [if_neg hb]
          by_cases hq : c = c!"\""
          · simp only [if_pos hq]
            rw [hq]
            simp only [scanString]
            rw [if_neg (by decide), if_pos trivial, window_take_rest h (show n ≤ p.available by omega)]
            simp only [List.append_nil]
            exact decodeErrorText_eq
          · simp only [if_neg hq]
            have hf2 : n + 1 + stringEnd false (p.rest.drop (n + 1)) < size := by
              simp only [stringEnd, if_neg hb, if_neg hq] at hfit
              omega
            have := go false escaped hf2
            simp only [scanString, if_neg hb, if_neg hq]
            exact this
    · simp only [if_neg hlt]
      have ha : p.available = n := by omega
      have hm := bufferMore_ends hends
      rcases bufferMore_spec h with ⟨p', e, g1, g2, g3⟩ | ⟨p', e, g1, g2, g3, g4, g5⟩
      · rw [e] at hm ⊢
        rw [rest_of_window h g3 (n := n) (by omega)]
        simp only [scanString]
        exact endText_eq (hm.2 rfl)
      · rw [e] at hm ⊢
        have hw := g5 (by omega)
        have := ih p' n escapeNext escaped g1 hm (by omega) (by omega) (by omega) (by rw [g3]; exact hfit)
        rw [g3] at this
        exact this

end Parser

theorem Op.errorText_eq {size : Nat} {readErr : Str} {failing : Bool} (h0 : 0 < size) (o : Op) (fuel : Nat) (p : Parser) (h : p.Ok) (hends : p.Ends failing) (hs : size ≤ p.buffer.length)
    (hf : p.work < fuel) (hfit : o.Fits size p.rest) (hne : o.needsByte = true → p.tail < p.head) (herr : o.stream p.rest = .err) :
    o.errorText readErr fuel p = o.streamText (endingText readErr failing) p.rest := by
  have hag := o.run_agrees h0 fuel p h hs hf hfit hne
  rw [herr] at hag
  obtain ⟨p', hrun, _⟩ := hag
  have first : o.needsByte = true → ∃ c, p.current = some c ∧ p.rest = c :: p.rest.drop 1 := by
    intro hb
    have ha : 0 < p.available := by have := hne hb; unfold Parser.available; omega
    obtain ⟨c, hc⟩ := Parser.buffer_get h ha
    have hr := Parser.rest_get h ha
    rw [hc] at hr
    rw [Nat.add_zero] at hc
    have hd := Parser.drop_cons_of_get hr.symm
    rw [List.drop_zero] at hd
    exact ⟨c, hc, hd⟩
  cases o with
  | skipWhitespace =>
    have := Parser.skipWhitespace_ends fuel hends
    simp only [Op.run] at hrun
    simp only [Op.errorText, Op.streamText, hrun, Run.failed?]
    rw [hrun] at this
    exact endText_eq (this.2 rfl)
  | current =>
    obtain ⟨c, hc, hd⟩ := first rfl
    rw [hd] at herr
    simp [Op.stream] at herr
  | consume t =>
    obtain ⟨c, hc, hd⟩ := first rfl
    rw [hd]
    simp [Op.errorText, Op.streamText, hc]
  | readString =>
    obtain ⟨c, hc, hd⟩ := first rfl
    have ha : 0 < p.available := by have := hne rfl; unfold Parser.available; omega
    obtain ⟨a1, a2, a3⟩ := Parser.advance h (show 1 ≤ p.available from ha)
    simp only [Op.errorText, hc, Option.map_some, Option.getD_some]
    rw [hd]
    simp only [Op.streamText]
    split
    · rfl
    · rename_i hq
      have hq : c = c!"\"" := by simpa using hq
      have := Parser.readStringLoop_text (size := size) (readErr := readErr) (failing := failing) fuel { p with tail := p.tail + 1 } 0 false false a1 ⟨hends.input, hends.eof⟩ hs (Nat.zero_le _) (by omega)
        (by rw [a2, List.drop_zero, Nat.zero_add]; exact hfit _ (by rw [← hq]; exact hd))
      rw [a2] at this
      simp only [List.take_zero, List.nil_append, List.drop_zero] at this
      rw [hd] at herr
      simp only [Op.stream, if_neg (show ¬ c ≠ c!"\"" by simp [hq])] at herr
      split at this
      · exact this
      · rename_i body s hsc
        rw [hsc] at herr
        refine this ?_
        simp only at herr
        split at herr
        · assumption
        · cases herr
  | readNumber =>
    obtain ⟨c, hc, hd⟩ := first rfl
    simp only [Op.errorText, hc, Option.map_some, Option.getD_some]
    simp only [Op.run, Parser.readNumber, hc] at hrun
    rw [hd]
    simp only [Op.streamText]
    split
    · rfl
    · rename_i hq
      rw [if_neg hq] at hrun
      have := Parser.readNumberLoop_ends fuel 1 hends
      rw [hrun] at this ⊢
      exact endText_eq (this.2 rfl)
  | readWord w =>
    obtain ⟨c, hc, hd⟩ := first rfl
    obtain ⟨r1, r2⟩ := Parser.require_agrees fuel p w.length h hs hf
    have hreq := Parser.require_ends fuel w.length hends
    rw [hd]
    simp only [Op.streamText]
    rw [← hd]
    simp only [Op.errorText]
    by_cases hl : p.rest.length < w.length
    · obtain ⟨p', e, _⟩ := r2 hl
      rw [e] at hreq ⊢
      rw [if_pos hl]
      simp only [endText_eq (hreq.2 rfl)]
    · obtain ⟨p', e, g1, g2, g3, g4, g5⟩ := r1 (by omega)
      have hw : 0 < w.length := by cases w <;> decide
      have hr := Parser.rest_get g1 (n := 0) (by omega)
      rw [g2, hd, Nat.add_zero, List.getElem?_cons_zero] at hr
      rw [e, if_neg hl]
      unfold Parser.current
      simp only [hr]
      rfl

/-! ## Decoders on a stream -/

/-- The text of the error of a decoder on a stream, if it fails. -/
def Texts.stream (ending : Str) : Texts → Str → Option Str
  | .fail text, _ => some text
  | .op o context k, s =>
    match o.stream s with
    | .ok a s => (k a).stream ending s
    | .err => some (context ++ o.streamText ending s)
    | .bad => none
  | _, _ => none

theorem Texts.run_eq {size : Nat} {readErr : Str} {failing : Bool} (h0 : 0 < size) {σ : Type} {P : σ → Prop} {t : Texts} {prog : Prog σ} (ht : t.Of P prog) (fuel : Nat) (p : Parser) (ready : Bool)
    (h : p.Ok) (hends : p.Ends failing) (hs : size ≤ p.buffer.length) (hf : p.work < fuel) (hfit : prog.Fits size p.rest) (hr : ready = true → p.tail < p.head)
    (hb : prog.stream ready p.rest ≠ .bad) : t.run readErr fuel p = t.stream (endingText readErr failing) p.rest := by
  induction ht generalizing p ready with
  | done _ => rfl
  | fail => rfl
  | timeout => rfl
  | op _ ih =>
    rename_i o context m k k' _
    unfold Prog.Fits at hfit
    unfold Prog.stream at hb
    by_cases hn : (o.needsByte && !ready) = true
    · rw [if_pos hn] at hb
      exact absurd rfl hb
    · rw [if_neg hn] at hb
      have hne : o.needsByte = true → p.tail < p.head := by
        intro hb
        rw [hb] at hn
        exact hr (by simpa using hn)
      have ha := o.run_agrees h0 fuel p h hs hf hfit.1 hne
      have he := o.run_ends fuel hends
      rcases hst : o.stream p.rest with ⟨a, s⟩ | _ | _
      · rw [hst] at ha hb
        obtain ⟨p', e1, e2, e3, e4, e5⟩ := ha
        have hfit' : (k' a).Fits size s := by
          have := hfit.2
          rw [hst] at this
          exact this
        rw [e1] at he
        have := ih a p' o.readyAfter e2 he e4 (by omega) (by rw [e3]; exact hfit') (fun hh => Op.run_ready e1 hh hne) (by rw [e3]; exact hb)
        rw [e3] at this
        simp only [Texts.run, Texts.stream, e1, hst]
        exact this
      · rw [hst] at ha
        obtain ⟨p', e1, e2⟩ := ha
        simp only [Texts.run, Texts.stream, e1, hst]
        rw [o.errorText_eq h0 fuel p h hends hs hf hfit.1 hne hst]
      · rw [hst] at hb
        exact absurd rfl hb

end Verif
