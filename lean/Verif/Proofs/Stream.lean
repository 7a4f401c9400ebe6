import Verif.Proofs.Parser
import Verif.Model.Decoder

/-!
# Decoders on a stream of bytes

The meaning of the parser's operations and of the decoders on the sequence of bytes still to be read, without buffer and reader; and that
the parser agrees with it whenever no token fills its buffer.
-/

namespace Verif

/-! ## Operations on a stream -/

/-- The bytes before and after the closing quote. -/
def scanString : Bool → List UInt8 → Option (List UInt8 × List UInt8)
  | _, [] => none
  | true, c :: t => (scanString false t).map fun r => (c :: r.1, r.2)
  | false, c :: t =>
    if c = c!"\\" then (scanString true t).map fun r => (c :: r.1, r.2)
    else if c = c!"\"" then some ([], t)
    else (scanString false t).map fun r => (c :: r.1, r.2)

/-- The number of bytes before the closing quote, or of all bytes if there is none. -/
def stringEnd : Bool → List UInt8 → Nat
  | _, [] => 0
  | true, _ :: t => stringEnd false t + 1
  | false, c :: t =>
    if c = c!"\\" then stringEnd true t + 1
    else if c = c!"\"" then 0
    else stringEnd false t + 1

/-- The outcome of an operation; `bad`: it looked at a byte where there was none. -/
inductive SRun (α : Type)
  | ok (a : α) (s : List UInt8)
  | err
  | bad

def numberChar (c : UInt8) : Bool := isCharDigit c || c = c!"." || c = c!"e"

/-- The operations. -/
def Op.stream : (o : Op) → List UInt8 → SRun o.Res
  | .skipWhitespace, s =>
    match s.dropWhile isCharSpace with
    | [] => .err
    | s => .ok () s
  | .current, s =>
    match s with
    | [] => .bad
    | c :: _ => .ok c s
  | .consume t, s =>
    match s with
    | [] => .bad
    | c :: s => if symbolTable c = t.type then .ok () s else .err
  | .readString, s =>
    match s with
    | [] => .bad
    | c :: s =>
      if c ≠ c!"\"" then .err
      else match scanString false s with
        | none => .err
        | some (body, s) =>
          match Spec.unescape body with
          | none => .err
          | some v => .ok v s
  | .readNumber, s =>
    match s with
    | [] => .bad
    | c :: s =>
      if !isCharDigit c then .err
      else match s.dropWhile numberChar with
        | [] => .err
        | s' => .ok (c :: s.takeWhile numberChar) s'
  | .readWord w, s =>
    match s with
    | [] => .bad
    | c :: _ =>
      if s.length < w.length then .err
      else if c ≠ w.first then .err
      else .ok (s.take w.length) (s.drop w.length)

/-- The outcome of an operation of a parser (with at least `size` bytes of buffer) is that on the stream. -/
def Agrees {α : Type} (size : Nat) (p : Parser) (r : Run α) : SRun α → Prop
  | .ok a s => ∃ p', r = .ok a p' ∧ p'.Ok ∧ p'.rest = s ∧ size ≤ p'.buffer.length ∧ p'.work ≤ p.work
  | .err => ∃ p', r = .err p' ∧ p'.Ok
  | .bad => True

theorem Agrees.mono {α : Type} {size : Nat} {p p' : Parser} {r : Run α} {s : SRun α} (h : Agrees size p' r s)
    (hw : p'.work ≤ p.work) : Agrees size p r s := by
  cases s with
  | ok a s =>
    obtain ⟨q, e1, e2, e3, e4, e5⟩ := h
    exact ⟨q, e1, e2, e3, e4, by omega⟩
  | err => exact h
  | bad => trivial

namespace Parser

theorem drop_cons_of_get {l : List UInt8} {n : Nat} {c : UInt8} (h : l[n]? = some c) : l.drop n = c :: l.drop (n + 1) := by
  obtain ⟨hlt, rfl⟩ := List.getElem?_eq_some_iff.mp h
  exact List.drop_eq_getElem_cons hlt

theorem rest_of_window {p : Parser} (h : p.Ok) (hr : p.rest = p.window) {n : Nat} (hn : p.available ≤ n) : p.rest.drop n = [] := by
  rw [hr]
  exact List.drop_of_length_le (by rw [window_length h]; exact hn)

theorem skipWhitespace_agrees {size : Nat} (h0 : 0 < size) (fuel : Nat) (p : Parser) (h : p.Ok) (hs : size ≤ p.buffer.length)
    (hf : p.work < fuel) : Agrees size p (skipWhitespace fuel p) (Op.stream .skipWhitespace p.rest) := by
  induction fuel generalizing p with
  | zero => omega
  | succ fuel ih =>
    unfold skipWhitespace
    by_cases ht : p.tail < p.head
    · rw [if_pos ht]
      have ha : 0 < p.available := by unfold available; omega
      obtain ⟨c, hc⟩ := buffer_get h ha
      have hr := rest_get h ha
      rw [hc] at hr
      rw [Nat.add_zero] at hc
      have hd := drop_cons_of_get hr.symm
      rw [List.drop_zero] at hd
      simp only [hc]
      obtain ⟨a1, a2, a3⟩ := advance h (show 1 ≤ p.available from ha)
      by_cases hsp : isCharSpace c = true
      · rw [if_pos hsp]
        have := ih _ a1 hs (by omega)
        rw [a2] at this
        have he : Op.stream .skipWhitespace p.rest = Op.stream .skipWhitespace (p.rest.drop 1) := by
          conv => lhs; rw [hd]
          simp only [Op.stream, List.dropWhile_cons, hsp, if_true]
        rw [he]
        exact this.mono (by omega)
      · rw [if_neg hsp]
        have he : Op.stream .skipWhitespace p.rest = .ok () p.rest := by
          simp only [Op.stream]
          rw [hd, List.dropWhile_cons, if_neg hsp]
        rw [he]
        exact ⟨p, rfl, h, rfl, hs, Nat.le_refl _⟩
    · rw [if_neg ht]
      have ha : p.available = 0 := by unfold available; omega
      rcases bufferMore_spec h with ⟨p', e, g1, g2, g3⟩ | ⟨p', e, g1, g2, g3, g4, g5⟩
      · rw [e]
        have := rest_of_window h g3 (n := 0) (by omega)
        rw [List.drop_zero] at this
        rw [this]
        exact ⟨p', rfl, g1⟩
      · rw [e]
        simp only
        have hw := g5 (by omega)
        have := ih p' g1 (by omega) (by omega)
        rw [g3] at this
        exact this.mono (by omega)

theorem consume_agrees {size : Nat} (p : Parser) (h : p.Ok) (hs : size ≤ p.buffer.length) (hne : p.tail < p.head) (t : Punct) :
    Agrees size p (p.consume t.type) (Op.stream (.consume t) p.rest) := by
  have ha : 0 < p.available := by unfold available; omega
  obtain ⟨c, hc⟩ := buffer_get h ha
  have hr := rest_get h ha
  rw [hc] at hr
  rw [Nat.add_zero] at hc
  have hd := drop_cons_of_get hr.symm
  rw [List.drop_zero] at hd
  obtain ⟨a1, a2, a3⟩ := advance h (show 1 ≤ p.available from ha)
  rw [hd]
  unfold consume current Op.stream
  simp only [hc]
  by_cases hq : symbolTable c = t.type
  · rw [if_neg (by simpa using hq), if_pos hq]
    exact ⟨_, rfl, a1, a2, hs, by omega⟩
  · rw [if_pos (by simpa using hq), if_neg hq]
    exact ⟨p, rfl, h⟩

/-! ### Strings -/

theorem unescape_no_backslash {l : List UInt8} (h : c!"\\" ∉ l) : Spec.unescape l = some l := by
  induction l with
  | nil => rfl
  | cons c l ih =>
    rw [List.mem_cons, not_or] at h
    unfold Spec.unescape
    rw [if_pos (Ne.symm h.1), ih h.2]
    rfl

theorem finishString_agrees {size : Nat} {p : Parser} (h : p.Ok) (hs : size ≤ p.buffer.length) {n : Nat} (hn : n < p.available)
    {escaped : Bool} (he : escaped = false → c!"\\" ∉ p.rest.take n) :
    Agrees size p (p.finishString n escaped)
      (match Spec.unescape (p.rest.take n) with
        | none => .err
        | some v => .ok v (p.rest.drop (n + 1))) := by
  have h1 := h.th
  have h2 := h.hb
  have hn' := hn
  unfold available at hn'
  obtain ⟨a1, a2, a3⟩ := advance h (show n + 1 ≤ p.available from hn)
  have hv := window_take_rest h (show n ≤ p.available by omega)
  unfold finishString
  rw [if_neg (by omega)]
  simp only [hv]
  cases escaped with
  | false =>
    rw [unescape_no_backslash (he rfl)]
    simp only [Bool.false_eq_true, if_false]
    exact ⟨_, rfl, a1, a2, hs, by have := a3; simp only [Nat.add_assoc] at *; omega⟩
  | true =>
    simp only [if_true]
    have hlen : (p.rest.take n).length = n := by
      have := available_le_rest h
      simp only [List.length_take]
      omega
    have hd := unescapeLoop_spec ((p.rest.take n).length + 1) { buf := p.rest.take n, n := 0, idx := 0 } (Nat.le_refl _)
      (Nat.zero_le _) (by simp)
    simp only [List.drop_zero, List.take_zero, List.nil_append] at hd
    rw [show unescapeLoop ((p.rest.take n).length + 1) { buf := p.rest.take n, n := 0, idx := 0 } = decodeStringInPlace (p.rest.take n)
      from rfl] at hd
    rcases hu : Spec.unescape (p.rest.take n) with _ | v
    · rw [hu] at hd
      obtain ⟨st, e1, e2⟩ := hd
      rw [e1]
      obtain ⟨o1, o2, o3⟩ := overwrite h (show n ≤ p.available by omega) (v := st.buf) (by omega)
      exact ⟨_, rfl, o1⟩
    · rw [hu] at hd
      obtain ⟨st, e1, e2, e3, e4, e5, e6⟩ := hd
      rw [e1, ]
      obtain ⟨o1, o2, o3⟩ := overwrite h (show n ≤ p.available by omega) (v := st.buf) (by omega)
      simp only [e6]
      refine ⟨_, rfl, ⟨by simp only; omega, o1.hb⟩, ?_, by simp only [o2]; exact hs, ?_⟩
      · rw [← a2]
        unfold rest window
        simp only [Nat.add_assoc]
        rw [o3 (n + 1) (by omega)]
      · have := a3
        simp only [work, available] at this ⊢
        omega

theorem readStringLoop_agrees {size : Nat} (fuel : Nat) (p : Parser) (n : Nat) (escapeNext escaped : Bool) (h : p.Ok)
    (hs : size ≤ p.buffer.length) (hn : n ≤ p.available) (hf : p.work < fuel + n)
    (hfit : n + stringEnd escapeNext (p.rest.drop n) < size) (he : escaped = false → c!"\\" ∉ p.rest.take n)
    (hh : escapeNext = true → escaped = true) :
    Agrees size p (readStringLoop fuel p n escapeNext escaped)
      (match scanString escapeNext (p.rest.drop n) with
        | none => .err
        | some (body, s) =>
          match Spec.unescape (p.rest.take n ++ body) with
          | none => .err
          | some v => .ok v s) := by
  induction fuel generalizing p n escapeNext escaped with
  | zero =>
    have : p.available ≤ p.work := by unfold work; omega
    omega
  | succ fuel ih =>
    unfold readStringLoop
    by_cases hlt : n < p.available
    · rw [if_pos hlt]
      obtain ⟨c, hc⟩ := buffer_get h hlt
      have hr := rest_get h hlt
      rw [hc] at hr
      have hd := drop_cons_of_get hr.symm
      have htk : p.rest.take (n + 1) = p.rest.take n ++ [c] := by
        rw [List.take_add_one, ← hr]; rfl
      simp only [hc]
      rw [hd] at hfit ⊢
      -- the next iteration, after the byte was found not to be the closing quote
      have go : ∀ esc' has', n + 1 + stringEnd esc' (p.rest.drop (n + 1)) < size →
          (has' = false → c!"\\" ∉ p.rest.take (n + 1)) → (esc' = true → has' = true) →
          Agrees size p (readStringLoop fuel p (n + 1) esc' has')
            (match (scanString esc' (p.rest.drop (n + 1))).map fun r => (c :: r.1, r.2) with
              | none => .err
              | some (body, s) =>
                match Spec.unescape (p.rest.take n ++ body) with
                | none => .err
                | some v => .ok v s) := by
        intro esc' has' hf' he' hh'
        have := ih p (n + 1) esc' has' h hs hlt (by omega) hf' he' hh'
        rcases hsc : scanString esc' (p.rest.drop (n + 1)) with _ | ⟨body, s⟩
        · rw [hsc] at this
          exact this
        · rw [hsc] at this
          simp only [htk, List.append_assoc, List.singleton_append] at this
          exact this
      cases escapeNext with
      | true =>
        rw [if_pos rfl]
        have hf2 : n + 1 + stringEnd false (p.rest.drop (n + 1)) < size := by
          simp only [stringEnd] at hfit
          omega
        exact go false escaped hf2 (by rw [hh rfl]; simp) (by simp)
      | false =>
        simp only [Bool.false_eq_true, if_false]
        by_cases hb : c = c!"\\"
        · rw [if_pos hb]
          have hf2 : n + 1 + stringEnd true (p.rest.drop (n + 1)) < size := by
            simp only [stringEnd, if_pos hb] at hfit
            omega
          have := go true true hf2 (by simp) (by simp)
          rw [hb] at this ⊢
          simpa only [scanString, if_true] using this
        · rw [if_neg hb]
          by_cases hq : c = c!"\""
          · rw [if_pos hq]
            have := finishString_agrees h hs hlt he
            rw [hq]
            simpa [scanString] using this
          · rw [if_neg hq]
            have hf2 : n + 1 + stringEnd false (p.rest.drop (n + 1)) < size := by
              simp only [stringEnd, if_neg hb, if_neg hq] at hfit
              omega
            have := go false escaped hf2 (by
              intro hh
              rw [htk, List.mem_append, List.mem_singleton, not_or]
              exact ⟨he hh, fun hx => hb hx.symm⟩) (by simp)
            simp only [scanString, if_neg hb, if_neg hq]
            exact this
    · rw [if_neg hlt]
      have ha : p.available = n := by omega
      rcases bufferMore_spec h with ⟨p', e, g1, g2, g3⟩ | ⟨p', e, g1, g2, g3, g4, g5⟩
      · rw [e, rest_of_window h g3 (n := n) (by omega)]
        simp only [scanString]
        exact ⟨p', rfl, g1⟩
      · rw [e]
        have hw := g5 (by omega)
        have := ih p' n escapeNext escaped g1 (by omega) (by omega) (by omega) (by rw [g3]; exact hfit)
          (by rw [g3]; exact he) hh
        rw [g3] at this
        exact this.mono (by omega)

theorem readString_agrees {size : Nat} (fuel : Nat) (p : Parser) (h : p.Ok) (hs : size ≤ p.buffer.length)
    (hne : p.tail < p.head) (hf : p.work < fuel) (hfit : ∀ t, p.rest = c!"\"" :: t → stringEnd false t < size) :
    Agrees size p (readString fuel p) (Op.stream .readString p.rest) := by
  have ha : 0 < p.available := by unfold available; omega
  obtain ⟨c, hc⟩ := buffer_get h ha
  have hr := rest_get h ha
  rw [hc] at hr
  rw [Nat.add_zero] at hc
  have hd := drop_cons_of_get hr.symm
  rw [List.drop_zero] at hd
  obtain ⟨a1, a2, a3⟩ := advance h (show 1 ≤ p.available from ha)
  unfold readString current
  simp only [hc]
  by_cases hq : c = c!"\""
  · rw [if_neg (by simpa using hq)]
    have := readStringLoop_agrees (size := size) fuel _ 0 false false a1 hs (Nat.zero_le _) (by omega)
      (by rw [a2, List.drop_zero, Nat.zero_add]; exact hfit _ (by rw [← hq]; exact hd)) (by simp) (by simp)
    rw [a2] at this
    rw [hd, hq]
    simp only [Op.stream, ne_eq, not_true_eq_false, if_false]
    simp only [List.take_zero, List.nil_append, List.drop_zero] at this
    exact this.mono (by omega)
  · rw [if_pos (by simpa using hq), hd]
    simp only [Op.stream]
    rw [if_pos (by simpa using hq)]
    exact ⟨p, rfl, h⟩

/-! ### Numbers -/

theorem isCharDigit_iff (c : UInt8) : isCharDigit c = true ↔ Spec.NumberStart c := by
  revert c
  exact byte_forall (by decide +kernel)

theorem numberChar_iff (c : UInt8) : numberChar c = true ↔ Spec.NumberChar c := by
  revert c
  exact byte_forall (by decide +kernel)

theorem readNumberLoop_agrees {size : Nat} (fuel : Nat) (p : Parser) (n : Nat) (h : p.Ok)
    (hs : size ≤ p.buffer.length) (hn : n ≤ p.available) (hf : p.work < fuel + n)
    (hfit : n + ((p.rest.drop n).takeWhile numberChar).length < size) :
    Agrees size p (readNumberLoop fuel p n)
      (match (p.rest.drop n).dropWhile numberChar with
        | [] => .err
        | s => .ok (p.rest.take n ++ (p.rest.drop n).takeWhile numberChar) s) := by
  induction fuel generalizing p n with
  | zero =>
    have : p.available ≤ p.work := by unfold work; omega
    omega
  | succ fuel ih =>
    unfold readNumberLoop
    by_cases hlt : n < p.available
    · rw [if_pos hlt]
      obtain ⟨c, hc⟩ := buffer_get h hlt
      have hr := rest_get h hlt
      rw [hc] at hr
      have hd := drop_cons_of_get hr.symm
      have htk : p.rest.take (n + 1) = p.rest.take n ++ [c] := by
        rw [List.take_add_one, ← hr]; rfl
      simp only [hc]
      by_cases hnum : numberChar c = true
      · rw [if_neg (by
          simp only [numberChar, Bool.or_eq_true, decide_eq_true_eq] at hnum
          simp only [Bool.and_eq_true, Bool.not_eq_true', decide_eq_true_eq]
          rintro ⟨⟨n1, n2⟩, n3⟩
          rcases hnum with (h | h) | h
          · rw [h] at n1; simp at n1
          · exact n2 h
          · exact n3 h)]
        have hf2 : n + 1 + ((p.rest.drop (n + 1)).takeWhile numberChar).length < size := by
          rw [hd, List.takeWhile_cons, if_pos hnum, List.length_cons] at hfit
          omega
        have := ih p (n + 1) h hs hlt (by omega) hf2
        rw [hd]
        simp only [List.dropWhile_cons, List.takeWhile_cons, hnum, if_true]
        rw [htk, List.append_assoc, List.singleton_append] at this
        exact this
      · rw [if_pos (by simpa [numberChar] using hnum)]
        have h1 := h.th
        have h2 := h.hb
        have hn' := hlt
        unfold available at hn'
        obtain ⟨a1, a2, a3⟩ := advance h hn
        rw [if_neg (by omega), window_take_rest h hn, hd]
        simp only [List.dropWhile_cons, List.takeWhile_cons, hnum]
        rw [if_neg (by simp), if_neg (by simp), List.append_nil]
        exact ⟨_, rfl, a1, by rw [a2, hd], hs, by omega⟩
    · rw [if_neg hlt]
      have ha : p.available = n := by omega
      rcases bufferMore_spec h with ⟨p', e, g1, g2, g3⟩ | ⟨p', e, g1, g2, g3, g4, g5⟩
      · rw [e, rest_of_window h g3 (n := n) (by omega)]
        exact ⟨p', rfl, g1⟩
      · rw [e]
        have hw := g5 (by omega)
        have := ih p' n g1 (by omega) (by omega) (by omega) (by rw [g3]; exact hfit)
        rw [g3] at this
        exact this.mono (by omega)

theorem readNumber_agrees {size : Nat} (fuel : Nat) (p : Parser) (h : p.Ok) (hs : size ≤ p.buffer.length)
    (hne : p.tail < p.head) (hf : p.work < fuel)
    (hfit : ∀ c t, p.rest = c :: t → isCharDigit c = true → (t.takeWhile numberChar).length + 1 < size) :
    Agrees size p (readNumber fuel p) (Op.stream .readNumber p.rest) := by
  have ha : 0 < p.available := by unfold available; omega
  obtain ⟨c, hc⟩ := buffer_get h ha
  have hr := rest_get h ha
  rw [hc] at hr
  rw [Nat.add_zero] at hc
  have hd := drop_cons_of_get hr.symm
  rw [List.drop_zero] at hd
  have htk : p.rest.take 1 = [c] := by rw [hd]; rfl
  unfold readNumber current
  simp only [hc]
  by_cases hq : isCharDigit c = true
  · rw [if_neg (by simpa using hq)]
    have hf2 := hfit c (p.rest.drop 1) hd hq
    have := readNumberLoop_agrees (size := size) fuel p 1 h hs ha (by omega) (by omega)
    rw [htk, List.singleton_append] at this
    rw [hd]
    simp only [Op.stream, hq, Bool.not_true, Bool.false_eq_true, if_false]
    exact this
  · rw [if_pos (by simpa using hq), hd]
    simp only [Op.stream]
    rw [if_pos (by simpa using hq)]
    exact ⟨p, rfl, h⟩

/-! ### Words -/

theorem grow_spec {p : Parser} (h : p.Ok) {n : Nat} (hn : p.available < n) :
    ∃ p', p.grow n = some p' ∧ p'.Ok ∧ p'.rest = p.rest ∧ p'.available = p.available ∧ p'.work = p.work ∧
      p.buffer.length ≤ p'.buffer.length ∧ p'.available < p'.buffer.length := by
  have h1 := h.th
  have h2 := h.hb
  have hav := available_le h
  unfold grow
  simp only
  split
  · rw [if_neg (by omega)]
    refine ⟨_, rfl, ⟨h1, by simp; omega⟩, ?_, rfl, rfl, by simp, by simp only [available] at *; simp; omega⟩
    unfold rest window
    simp only
    rw [List.drop_append_of_le_length (by omega), List.take_append_of_le_length (by simp; omega)]
  · exact ⟨p, rfl, h, rfl, rfl, rfl, Nat.le_refl _, by omega⟩

theorem require_agrees {size : Nat} (fuel : Nat) (p : Parser) (n : Nat) (h : p.Ok) (hs : size ≤ p.buffer.length) (hf : p.work < fuel) :
    (n ≤ p.rest.length → ∃ p', require fuel p n = .ok () p' ∧ p'.Ok ∧ p'.rest = p.rest ∧ size ≤ p'.buffer.length ∧ p'.work ≤ p.work ∧
      n ≤ p'.available) ∧
    (p.rest.length < n → ∃ p', require fuel p n = .err p' ∧ p'.Ok) := by
  induction fuel generalizing p with
  | zero => omega
  | succ fuel ih =>
    unfold require
    by_cases ha : p.available < n
    · rw [if_pos ha]
      obtain ⟨p1, e1, g1, g2, g3, g4, g5, g6⟩ := grow_spec h ha
      rw [e1]
      simp only
      rcases bufferMore_spec g1 with ⟨p', e, q1, q2, q3⟩ | ⟨p', e, q1, q2, q3, q4, q5⟩
      · rw [e]
        have hl : p.rest.length = p.available := by rw [← g2, q3, window_length g1, g3]
        exact ⟨fun hh => by omega, fun _ => ⟨p', rfl, q1⟩⟩
      · rw [e]
        have hw := q5 g6
        obtain ⟨i1, i2⟩ := ih p' q1 (by omega) (by omega)
        rw [q3, g2] at i1 i2
        refine ⟨fun hh => ?_, i2⟩
        obtain ⟨p2, j1, j2, j3, j4, j5, j6⟩ := i1 hh
        exact ⟨p2, j1, j2, j3, j4, by omega, j6⟩
    · rw [if_neg ha]
      refine ⟨fun _ => ⟨p, rfl, h, rfl, hs, Nat.le_refl _, by omega⟩, fun hh => ?_⟩
      have := available_le_rest h
      omega

theorem readN_agrees {size : Nat} (fuel : Nat) (p : Parser) (h : p.Ok) (hs : size ≤ p.buffer.length) (hf : p.work < fuel) (w : Word) :
    Agrees size p (readN fuel p w.first w.length) (Op.stream (.readWord w) p.rest) := by
  obtain ⟨r1, r2⟩ := require_agrees fuel p w.length h hs hf
  rcases hd : p.rest with _ | ⟨c, s⟩
  · trivial
  · unfold readN
    simp only [Op.stream]
    by_cases hl : (c :: s).length < w.length
    · rw [if_pos hl]
      obtain ⟨p', e, g⟩ := r2 (by rw [hd]; exact hl)
      rw [e]
      exact ⟨p', rfl, g⟩
    · rw [if_neg hl]
      obtain ⟨p', e, g1, g2, g3, g4, g5⟩ := r1 (by rw [hd]; omega)
      have hw : 0 < w.length := by cases w <;> decide
      have hr := rest_get g1 (n := 0) (by omega)
      rw [g2, hd, Nat.add_zero, List.getElem?_cons_zero] at hr
      rw [e]
      unfold current
      simp only [hr]
      by_cases hq : c = w.first
      · rw [if_neg (show ¬ c ≠ w.first by simpa using hq), if_neg (show ¬ c ≠ w.first by simpa using hq)]
        have h1 := g1.th
        have h2 := g1.hb
        have h5 := g5
        unfold available at h5
        obtain ⟨a1, a2, a3⟩ := advance g1 g5
        rw [if_neg (by omega), window_take_rest g1 g5, g2, hd]
        refine ⟨_, rfl, a1, ?_, g3, by omega⟩
        rw [a2, g2, hd]
      · rw [if_pos (show c ≠ w.first from hq), if_pos (show c ≠ w.first from hq)]
        exact ⟨p', rfl, g1⟩

end Parser

/-! ## All operations -/

/-- The operation looks at the current byte without making sure that there is one. -/
def Op.needsByte : Op → Bool
  | .skipWhitespace => false
  | _ => true

/-- There is a current byte after the operation. -/
def Op.readyAfter : Op → Bool
  | .skipWhitespace => true
  | .current => true
  | _ => false

/-- The string or number that the operation reads has fewer than `size` bytes. -/
def Op.Fits (size : Nat) : Op → List UInt8 → Prop
  | .readString, s => ∀ t, s = c!"\"" :: t → stringEnd false t < size
  | .readNumber, s => ∀ c t, s = c :: t → isCharDigit c = true → (t.takeWhile numberChar).length + 1 < size
  | _, _ => True

theorem Op.run_agrees {size : Nat} (h0 : 0 < size) (o : Op) (fuel : Nat) (p : Parser) (h : p.Ok) (hs : size ≤ p.buffer.length)
    (hf : p.work < fuel) (hfit : o.Fits size p.rest) (hne : o.needsByte = true → p.tail < p.head) :
    Agrees size p (o.run fuel p) (o.stream p.rest) := by
  cases o with
  | skipWhitespace => exact p.skipWhitespace_agrees h0 fuel h hs hf
  | current =>
    have hne := hne rfl
    have ha : 0 < p.available := by unfold Parser.available; omega
    obtain ⟨c, hc⟩ := Parser.buffer_get h ha
    have hr := Parser.rest_get h ha
    rw [hc] at hr
    rw [Nat.add_zero] at hc
    have hd := Parser.drop_cons_of_get hr.symm
    rw [List.drop_zero] at hd
    unfold Op.run Parser.current Op.stream
    simp only [hc]
    rw [hd]
    exact ⟨p, rfl, h, hd, hs, Nat.le_refl _⟩
  | consume t => exact p.consume_agrees h hs (hne rfl) t
  | readString => exact Parser.readString_agrees fuel p h hs (hne rfl) hf hfit
  | readNumber => exact Parser.readNumber_agrees fuel p h hs (hne rfl) hf hfit
  | readWord w => exact Parser.readN_agrees fuel p h hs hf w

/-! ### The sizes of the remaining tokens -/

theorem fits_stringEnd {size : Nat} {esc : Bool} {n : Nat} {s : List UInt8} (h : Spec.FitsFrom size (.string esc n) s) (hn : n < size) :
    n + stringEnd esc s < size := by
  induction s generalizing esc n with
  | nil => simpa [stringEnd] using hn
  | cons c s ih =>
    obtain ⟨h1, h2⟩ := h
    cases esc with
    | true =>
      have := ih h2 h1
      simp only [stringEnd]
      omega
    | false =>
      simp only [Spec.LexState.next] at h1 h2
      simp only [stringEnd]
      by_cases hb : c = c!"\\"
      · rw [if_pos hb] at h1 h2 ⊢
        have := ih h2 h1
        omega
      · rw [if_neg hb] at h1 h2 ⊢
        by_cases hq : c = c!"\""
        · rw [if_pos hq]
          omega
        · rw [if_neg hq] at h1 h2 ⊢
          have := ih h2 h1
          omega

theorem fits_numberEnd {size : Nat} {n : Nat} {s : List UInt8} (h : Spec.FitsFrom size (.number n) s) (hn : n < size) :
    n + (s.takeWhile numberChar).length < size := by
  induction s generalizing n with
  | nil => simpa using hn
  | cons c s ih =>
    rw [List.takeWhile_cons]
    split
    · rename_i hc
      obtain ⟨h1, h2⟩ := h
      simp only [Spec.LexState.next, if_pos ((Parser.numberChar_iff c).mp hc)] at h1 h2
      have := ih h2 h1
      rw [List.length_cons]
      omega
    · simpa using hn

theorem Op.fits_tokens {size : Nat} (o : Op) {s : List UInt8} (h0 : 0 < size) (h : Spec.TokensFit size s) : o.Fits size s := by
  cases o with
  | readString =>
    rintro t rfl
    have := fits_stringEnd (n := 0) h.2 h0
    omega
  | readNumber =>
    rintro c t rfl hc
    have hst := (Parser.isCharDigit_iff c).mp hc
    have hnq : c ≠ c!"\"" := by
      rintro rfl
      exact absurd hc (by decide)
    obtain ⟨h1, h2⟩ := h
    simp only [Spec.LexState.next, Spec.LexState.start, if_neg hnq, if_pos hst, Spec.LexState.size] at h1 h2
    have := fits_numberEnd h2 h1
    omega
  | _ => trivial

theorem fits_scanString {size : Nat} {esc : Bool} {n : Nat} {s body s' : List UInt8}
    (h : Spec.FitsFrom size (.string esc n) s) (hs : scanString esc s = some (body, s')) : Spec.TokensFit size s' := by
  induction s generalizing esc n body s' with
  | nil => simp [scanString] at hs
  | cons c s ih =>
    cases esc with
    | true =>
      simp only [scanString, Option.map_eq_some_iff] at hs
      obtain ⟨⟨b, r⟩, h1, h2⟩ := hs
      injection h2 with _ h2
      exact ih h.2 (by rw [h1, ← h2])
    | false =>
      simp only [scanString] at hs
      by_cases hb : c = c!"\\"
      · rw [if_pos hb, Option.map_eq_some_iff] at hs
        obtain ⟨⟨b, r⟩, h1, h2⟩ := hs
        have h3 := h.2
        simp only [Spec.LexState.next, if_pos hb] at h3
        injection h2 with _ h2
        exact ih h3 (by rw [h1, ← h2])
      · rw [if_neg hb] at hs
        have h3 := h.2
        simp only [Spec.LexState.next, if_neg hb] at h3
        by_cases hq : c = c!"\""
        · rw [if_pos hq] at hs h3
          injection hs with hs
          injection hs with _ hs
          rw [← hs]
          exact h3
        · rw [if_neg hq, Option.map_eq_some_iff] at hs
          rw [if_neg hq] at h3
          obtain ⟨⟨b, r⟩, h1, h2⟩ := hs
          injection h2 with _ h2
          exact ih h3 (by rw [h1, ← h2])

theorem fits_number {size : Nat} {n : Nat} {s : List UInt8} (h : Spec.FitsFrom size (.number n) s) :
    Spec.TokensFit size (s.dropWhile numberChar) := by
  induction s generalizing n with
  | nil => trivial
  | cons c s ih =>
    rw [List.dropWhile_cons]
    split
    · rename_i hc
      have h2 := h.2
      simp only [Spec.LexState.next, if_pos ((Parser.numberChar_iff c).mp hc)] at h2
      exact ih h2
    · rename_i hc
      have h2 : ¬ Spec.NumberChar c := fun hh => hc ((Parser.numberChar_iff c).mpr hh)
      simpa only [Spec.TokensFit, Spec.FitsFrom, Spec.LexState.next, if_neg h2] using h

theorem fits_word {size k : Nat} {s : List UInt8} (h : Spec.FitsFrom size (.word (k + 1)) s) (hl : k + 1 ≤ s.length) :
    Spec.TokensFit size (s.drop (k + 1)) := by
  induction k generalizing s with
  | zero =>
    rcases s with _ | ⟨c, s⟩
    · simp at hl
    · simpa [Spec.FitsFrom, Spec.LexState.next, Spec.TokensFit] using h.2
  | succ k ih =>
    rcases s with _ | ⟨c, s⟩
    · simp at hl
    · have h2 := h.2
      simp only [Spec.LexState.next, if_neg (show ¬ k + 1 + 1 ≤ 1 by omega), Nat.add_sub_cancel] at h2
      exact ih h2 (by simp at hl ⊢; omega)

/-- Characters that are not part of a token with several characters. -/
theorem start_between {c : UInt8} (h : symbolTable c ≠ .number ∧ symbolTable c ≠ .string ∧ symbolTable c ≠ .null ∧
    symbolTable c ≠ .boolean) : Spec.LexState.start c = .between := by
  revert h
  revert c
  have : ∀ c : UInt8, (symbolTable c ≠ .number ∧ symbolTable c ≠ .string ∧ symbolTable c ≠ .null ∧
    symbolTable c ≠ .boolean) → Spec.LexState.start c = .between := byte_forall (by decide +kernel)
  exact fun {c} => this c

theorem fits_drop_between {size : Nat} {c : UInt8} {s : List UInt8} (h : Spec.TokensFit size (c :: s))
    (hc : symbolTable c ≠ .number ∧ symbolTable c ≠ .string ∧ symbolTable c ≠ .null ∧ symbolTable c ≠ .boolean) :
    Spec.TokensFit size s := by
  have := h.2
  simp only [Spec.LexState.next, start_between hc] at this
  exact this

theorem Op.stream_fits {size : Nat} (o : Op) {s s' : List UInt8} {a : o.Res} (h : Spec.TokensFit size s)
    (hs : o.stream s = .ok a s') : Spec.TokensFit size s' := by
  cases o with
  | skipWhitespace =>
    simp only [Op.stream] at hs
    have key : Spec.TokensFit size (s.dropWhile isCharSpace) := by
      clear hs
      induction s with
      | nil => trivial
      | cons c s ih =>
        rw [List.dropWhile_cons]
        split
        · rename_i hc
          simp only [isCharSpace, decide_eq_true_eq] at hc
          exact ih (fits_drop_between h (by rw [hc]; decide))
        · exact h
    split at hs
    · simp at hs
    · injection hs with _ hs
      rw [← hs]
      exact key
  | current =>
    simp only [Op.stream] at hs
    split at hs
    · simp at hs
    · injection hs with _ hs
      rw [← hs]
      exact h
  | consume t =>
    simp only [Op.stream] at hs
    split at hs
    · simp at hs
    · split at hs
      · rename_i hc
        injection hs with _ hs
        rw [← hs]
        refine fits_drop_between h ?_
        rw [hc]
        cases t <;> decide
      · simp at hs
  | readString =>
    simp only [Op.stream] at hs
    split at hs
    · simp at hs
    · split at hs
      · simp at hs
      · rename_i c s hq
        have hq : c = c!"\"" := by simpa using hq
        split at hs
        · simp at hs
        · rename_i body s2 hsc
          split at hs
          · simp at hs
          · injection hs with _ hs
            rw [← hs]
            have h2 := h.2
            rw [hq] at h2
            exact fits_scanString h2 hsc
  | readNumber =>
    simp only [Op.stream] at hs
    split at hs
    · simp at hs
    · split at hs
      · simp at hs
      · rename_i c s hq
        have hq : isCharDigit c = true := by simpa using hq
        split at hs
        · simp at hs
        · injection hs with _ hs
          rw [← hs]
          have h2 := h.2
          have hst := (Parser.isCharDigit_iff c).mp hq
          have hnq : c ≠ c!"\"" := by
            rintro rfl
            exact absurd hq (by decide)
          simp only [Spec.LexState.next, Spec.LexState.start, if_neg hnq, if_pos hst] at h2
          exact fits_number h2
  | readWord w =>
    simp only [Op.stream] at hs
    split at hs
    · simp at hs
    · rename_i c s
      split at hs
      · simp at hs
      · rename_i hl
        split at hs
        · simp at hs
        · rename_i hq
          have hq : c = w.first := by simpa using hq
          injection hs with _ hs
          rw [← hs]
          have h2 := h.2
          rw [hq] at h2
          cases w with
          | null => exact fits_word (k := 2) h2 (by simp [Word.length] at hl; omega)
          | true => exact fits_word (k := 2) h2 (by simp [Word.length] at hl; omega)
          | false => exact fits_word (k := 3) h2 (by simp [Word.length] at hl; omega)

/-! ## Programs on a stream -/

/-- The outcome of a program; `ready`: there is a current byte. -/
inductive SDecoded (σ : Type)
  | ok (m : σ) (ready : Bool) (s : List UInt8)
  | err (m : σ)
  | bad
  | timeout

/-- Runs a program on a stream. -/
def Prog.stream {σ : Type} : Prog σ → Bool → List UInt8 → SDecoded σ
  | .done m, r, s => .ok m r s
  | .fail m, _, _ => .err m
  | .timeout, _, _ => .timeout
  | .op o m k, r, s =>
    if o.needsByte && !r then .bad
    else match o.stream s with
      | .ok a s => (k a).stream o.readyAfter s
      | .err => .err m
      | .bad => .bad

theorem Prog.stream_andThen {τ σ : Type} (f : τ → σ) (k : τ → Prog σ) (p : Prog τ) (r : Bool) (s : List UInt8) :
    (p.andThen f k).stream r s = match p.stream r s with
      | .ok m r s => (k m).stream r s
      | .err m => .err (f m)
      | .bad => .bad
      | .timeout => .timeout := by
  induction p generalizing r s with
  | done m => rfl
  | fail m => rfl
  | timeout => rfl
  | op o m k' ih =>
    simp only [Prog.andThen, Prog.stream]
    split
    · rfl
    · cases o.stream s with
      | ok a s => exact ih a _ _
      | err => rfl
      | bad => rfl

theorem Parser.skipWhitespace_ready (fuel : Nat) (p : Parser) {p' : Parser} (h : Parser.skipWhitespace fuel p = .ok () p') :
    p'.tail < p'.head := by
  induction fuel generalizing p with
  | zero => simp [Parser.skipWhitespace] at h
  | succ fuel ih =>
    unfold Parser.skipWhitespace at h
    split at h
    · split at h
      · simp at h
      · split at h
        · exact ih _ h
        · rename_i ht _ _ _ _
          injection h with _ h
          rw [← h]
          exact ht
    · split at h
      · exact ih _ h
      · rename_i hne
        exact absurd h (hne _ _)

theorem Op.run_ready {o : Op} {fuel : Nat} {p p' : Parser} {a : o.Res} (h : o.run fuel p = .ok a p') (hr : o.readyAfter = true)
    (hne : o.needsByte = true → p.tail < p.head) : p'.tail < p'.head := by
  cases o with
  | skipWhitespace => exact Parser.skipWhitespace_ready fuel p h
  | current =>
    simp only [Op.run] at h
    split at h
    · simp at h
    · injection h with _ h
      rw [← h]
      exact hne rfl
  | _ => simp [Op.readyAfter] at hr

/-- The outcome of a decoder on a parser is that on the stream. -/
def DecodesAs {σ : Type} (size : Nat) (p : Parser) (r : Decoded σ) : SDecoded σ → Prop
  | .ok m ready s => ∃ p', r = .ok m p' ∧ p'.Ok ∧ p'.rest = s ∧ size ≤ p'.buffer.length ∧ p'.work ≤ p.work ∧
      (ready = true → p'.tail < p'.head)
  | .err m => ∃ p', r = .err m p'
  | .bad => True
  | .timeout => r = .timeout

/-- Every string and every number that a program reads has fewer than `size` bytes. -/
def Prog.Fits {σ : Type} (size : Nat) : Prog σ → List UInt8 → Prop
  | .done _, _ => True
  | .fail _, _ => True
  | .timeout, _ => True
  | .op o _ k, s =>
    o.Fits size s ∧
      match o.stream s with
      | .ok a s => (k a).Fits size s
      | _ => True

theorem Prog.fits_tokens {σ : Type} {size : Nat} (h0 : 0 < size) (prog : Prog σ) {s : List UInt8} (h : Spec.TokensFit size s) : prog.Fits size s := by
  induction prog generalizing s with
  | op o m k ih =>
    unfold Prog.Fits
    refine ⟨o.fits_tokens h0 h, ?_⟩
    split
    · rename_i hs
      exact ih _ (o.stream_fits h hs)
    · trivial
  | _ => trivial

/-- A decoder running on a parser does what it does on the stream. -/
theorem Prog.run_agrees_read {σ : Type} {size : Nat} (h0 : 0 < size) (prog : Prog σ) (fuel : Nat) (p : Parser) (ready : Bool) (h : p.Ok)
    (hs : size ≤ p.buffer.length) (hf : p.work < fuel) (hfit : prog.Fits size p.rest) (hr : ready = true → p.tail < p.head) :
    DecodesAs size p (prog.run fuel p) (prog.stream ready p.rest) := by
  induction prog generalizing p ready with
  | done m => exact ⟨p, rfl, h, rfl, hs, Nat.le_refl _, hr⟩
  | fail m => exact ⟨p, rfl⟩
  | timeout => rfl
  | op o m k ih =>
    unfold Prog.Fits at hfit
    unfold Prog.stream
    by_cases hn : (o.needsByte && !ready) = true
    · rw [if_pos hn]
      trivial
    · rw [if_neg hn]
      have hne : o.needsByte = true → p.tail < p.head := by
        intro hb
        rw [hb] at hn
        exact hr (by simpa using hn)
      have ha := o.run_agrees h0 fuel p h hs hf hfit.1 hne
      rcases hst : o.stream p.rest with ⟨a, s⟩ | _ | _
      · rw [hst] at ha
        obtain ⟨p', e1, e2, e3, e4, e5⟩ := ha
        have hfit' : (k a).Fits size s := by
          have := hfit.2
          rw [hst] at this
          exact this
        have hrun : (Prog.op o m k).run fuel p = (k a).run fuel p' := by
          simp only [Prog.run, e1]
        have := ih a p' o.readyAfter e2 e4 (by omega) (by rw [e3]; exact hfit') (fun hh => Op.run_ready e1 hh hne)
        rw [e3] at this
        simp only
        rw [hrun]
        rcases hd : (k a).stream o.readyAfter s with ⟨m', r', s'⟩ | m' | _ | _ <;> rw [hd] at this
        · obtain ⟨q, q1, q2, q3, q4, q5, q6⟩ := this
          exact ⟨q, q1, q2, q3, q4, by omega, q6⟩
        · exact this
        · trivial
        · exact this
      · rw [hst] at ha
        obtain ⟨p', e1, e2⟩ := ha
        exact ⟨p', by simp only [Prog.run, e1]⟩
      · trivial

theorem Prog.run_agrees {σ : Type} {size : Nat} (h0 : 0 < size) (prog : Prog σ) (fuel : Nat) (p : Parser) (ready : Bool) (h : p.Ok)
    (hs : size ≤ p.buffer.length) (hf : p.work < fuel) (hfit : Spec.TokensFit size p.rest) (hr : ready = true → p.tail < p.head) :
    DecodesAs size p (prog.run fuel p) (prog.stream ready p.rest) :=
  prog.run_agrees_read h0 fuel p ready h hs hf (prog.fits_tokens h0 hfit) hr

end Verif
