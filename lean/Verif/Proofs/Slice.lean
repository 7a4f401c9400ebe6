import Verif.Proofs.Safe

/-!
# A parser at the end of its input

Once there is nothing more to read (from the start for a parser over a slice), the parser agrees with the decoders on a stream of
bytes whatever the lengths of the tokens, and it writes to its memory only where a string contains a backslash.
-/

namespace Verif

/-- The outcome of an operation of a parser without more input is that on the stream; without a backslash the memory is unchanged. -/
def AgreesB {α : Type} (p : Parser) (r : Run α) : SRun α → Prop
  | .ok a s => ∃ p', r = .ok a p' ∧ p'.Ok ∧ p'.eof = true ∧ p'.rest = s ∧ p'.work ≤ p.work ∧ p'.buffer.length = p.buffer.length ∧
      s <:+ p.rest ∧ (c!"\\" ∉ p.rest → p'.buffer = p.buffer)
  | .err => ∃ p', r = .err p' ∧ p'.Ok ∧ p.buffer.length ≤ p'.buffer.length ∧ (c!"\\" ∉ p.rest → p.buffer <+: p'.buffer)
  | .bad => True

namespace Parser

theorem bufferMore_eof {p : Parser} (he : p.eof = true) : p.bufferMore = .err p := by
  unfold bufferMore
  rw [if_pos he]

theorem rest_eof {p : Parser} (he : p.eof = true) : p.rest = p.window := by
  unfold rest
  rw [if_pos he, List.append_nil]

theorem AgreesB.step {α : Type} {p : Parser} {r : Run α} {s : SRun α} {n : Nat} (h : p.Ok) (hn : n ≤ p.available)
    (hb : AgreesB { p with tail := p.tail + n } r s) : AgreesB p r s := by
  obtain ⟨a1, a2, a3⟩ := advance h hn
  have hmem : c!"\\" ∉ p.rest → c!"\\" ∉ p.rest.drop n := fun hh hm => hh (List.mem_of_mem_drop hm)
  cases s with
  | ok a s =>
    obtain ⟨q, e1, e2, e3, e4, e5, e6, e7, e8⟩ := hb
    rw [a2] at e7 e8
    exact ⟨q, e1, e2, e3, e4, by omega, e6, e7.trans (List.drop_suffix _ _), fun hh => e8 (hmem hh)⟩
  | err =>
    obtain ⟨q, e1, e2, e3, e4⟩ := hb
    rw [a2] at e4
    exact ⟨q, e1, e2, e3, fun hh => e4 (hmem hh)⟩
  | bad => trivial

theorem skipWhitespace_bytes (fuel : Nat) (p : Parser) (h : p.Ok) (he : p.eof = true) (hf : p.work < fuel) :
    AgreesB p (skipWhitespace fuel p) (Op.stream .skipWhitespace p.rest) := by
  induction fuel generalizing p with
  | zero => omega
  | succ fuel ih =>
    unfold skipWhitespace
    by_cases ht : p.tail < p.head
    · rw [if_pos ht]
      have ha : 0 < p.available := by unfold available; omega
      obtain ⟨c, hc⟩ := buffer_get h ha
      have hr := rest_get h ha
      rw [hc] at hr
      rw [Nat.add_zero] at hc
      have hd := drop_cons_of_get hr.symm
      rw [List.drop_zero] at hd
      simp only [hc]
      obtain ⟨a1, a2, a3⟩ := advance h (show 1 ≤ p.available from ha)
      by_cases hsp : isCharSpace c = true
      · rw [if_pos hsp]
        have := ih _ a1 he (by omega)
        rw [a2] at this
        have hs : Op.stream .skipWhitespace p.rest = Op.stream .skipWhitespace (p.rest.drop 1) := by
          conv => lhs; rw [hd]
          simp only [Op.stream, List.dropWhile_cons, hsp, if_true]
        rw [hs]
        exact AgreesB.step h ha this
      · rw [if_neg hsp]
        have hs : Op.stream .skipWhitespace p.rest = .ok () p.rest := by
          simp only [Op.stream]
          rw [hd, List.dropWhile_cons, if_neg hsp]
        rw [hs]
        exact ⟨p, rfl, h, he, rfl, Nat.le_refl _, rfl, List.suffix_refl _, fun _ => rfl⟩
    · rw [if_neg ht, bufferMore_eof he]
      have ha : p.available = 0 := by unfold available; omega
      have := rest_of_window h (rest_eof he) (n := 0) (by omega)
      rw [List.drop_zero] at this
      rw [this]
      exact ⟨p, rfl, h, Nat.le_refl _, fun _ => List.prefix_refl _⟩

theorem finishString_bytes {p : Parser} (h : p.Ok) (hend : p.eof = true) {n : Nat} (hn : n < p.available)
    {escaped : Bool} (he : escaped = false → c!"\\" ∉ p.rest.take n) (he' : escaped = true → c!"\\" ∈ p.rest.take n) :
    AgreesB p (p.finishString n escaped)
      (match Spec.unescape (p.rest.take n) with
        | none => .err
        | some v => .ok v (p.rest.drop (n + 1))) := by
  have h1 := h.th
  have h2 := h.hb
  have hn' := hn
  unfold available at hn'
  obtain ⟨a1, a2, a3⟩ := advance h (show n + 1 ≤ p.available from hn)
  have hv := window_take_rest h (show n ≤ p.available by omega)
  unfold finishString
  rw [if_neg (by omega)]
  simp only [hv]
  cases escaped with
  | false =>
    rw [unescape_no_backslash (he rfl)]
    simp only [Bool.false_eq_true, if_false]
    exact ⟨_, rfl, a1, hend, a2, by have := a3; simp only [Nat.add_assoc] at *; omega, rfl, List.drop_suffix _ _, fun _ => rfl⟩
  | true =>
    have hmem : ¬ c!"\\" ∉ p.rest := fun hh => hh (List.mem_of_mem_take (he' rfl))
    simp only [if_true]
    have hlen : (p.rest.take n).length = n := by
      have := available_le_rest h
      simp only [List.length_take]
      omega
    have hd := unescapeLoop_spec ((p.rest.take n).length + 1) { buf := p.rest.take n, n := 0, idx := 0 } (Nat.le_refl _)
      (Nat.zero_le _) (by simp)
    simp only [List.drop_zero, List.take_zero, List.nil_append] at hd
    rw [show unescapeLoop ((p.rest.take n).length + 1) { buf := p.rest.take n, n := 0, idx := 0 } = decodeStringInPlace (p.rest.take n)
      from rfl] at hd
    rcases hu : Spec.unescape (p.rest.take n) with _ | v
    · rw [hu] at hd
      obtain ⟨st, e1, e2⟩ := hd
      rw [e1]
      obtain ⟨o1, o2, o3⟩ := overwrite h (show n ≤ p.available by omega) (v := st.buf) (by omega)
      exact ⟨_, rfl, o1, Nat.le_of_eq o2.symm, fun hh => absurd hh hmem⟩
    · rw [hu] at hd
      obtain ⟨st, e1, e2, e3, e4, e5, e6⟩ := hd
      rw [e1]
      obtain ⟨o1, o2, o3⟩ := overwrite h (show n ≤ p.available by omega) (v := st.buf) (by omega)
      simp only [e6]
      refine ⟨_, rfl, ⟨by simp only; omega, o1.hb⟩, hend, ?_, ?_, o2, List.drop_suffix _ _, fun hh => absurd hh hmem⟩
      · rw [← a2]
        unfold rest window
        simp only [Nat.add_assoc]
        rw [o3 (n + 1) (by omega)]
      · have := a3
        simp only [work, available] at this ⊢
        omega

theorem readStringLoop_bytes (fuel : Nat) (p : Parser) (n : Nat) (escapeNext escaped : Bool) (h : p.Ok) (hend : p.eof = true)
    (hn : n ≤ p.available) (hf : p.work < fuel + n) (he : escaped = false → c!"\\" ∉ p.rest.take n)
    (he' : escaped = true → c!"\\" ∈ p.rest.take n) (hh : escapeNext = true → escaped = true) :
    AgreesB p (readStringLoop fuel p n escapeNext escaped)
      (match scanString escapeNext (p.rest.drop n) with
        | none => .err
        | some (body, s) =>
          match Spec.unescape (p.rest.take n ++ body) with
          | none => .err
          | some v => .ok v s) := by
  induction fuel generalizing n escapeNext escaped with
  | zero =>
    have : p.available ≤ p.work := by unfold work; omega
    omega
  | succ fuel ih =>
    unfold readStringLoop
    by_cases hlt : n < p.available
    · rw [if_pos hlt]
      obtain ⟨c, hc⟩ := buffer_get h hlt
      have hr := rest_get h hlt
      rw [hc] at hr
      have hd := drop_cons_of_get hr.symm
      have htk : p.rest.take (n + 1) = p.rest.take n ++ [c] := by
        rw [List.take_add_one, ← hr]; rfl
      simp only [hc]
      rw [hd]
      have go : ∀ esc' has', (has' = false → c!"\\" ∉ p.rest.take (n + 1)) → (has' = true → c!"\\" ∈ p.rest.take (n + 1)) →
          (esc' = true → has' = true) →
          AgreesB p (readStringLoop fuel p (n + 1) esc' has')
            (match (scanString esc' (p.rest.drop (n + 1))).map fun r => (c :: r.1, r.2) with
              | none => .err
              | some (body, s) =>
                match Spec.unescape (p.rest.take n ++ body) with
                | none => .err
                | some v => .ok v s) := by
        intro esc' has' g1 g2 g3
        have := ih (n + 1) esc' has' hlt (by omega) g1 g2 g3
        rcases hsc : scanString esc' (p.rest.drop (n + 1)) with _ | ⟨body, s⟩
        · rw [hsc] at this
          exact this
        · rw [hsc] at this
          simp only [htk, List.append_assoc, List.singleton_append] at this
          exact this
      cases escapeNext with
      | true =>
        rw [if_pos rfl]
        exact go false escaped (by rw [hh rfl]; simp) (fun x => by rw [htk]; exact List.mem_append_left _ (he' x)) (by simp)
      | false =>
        simp only [Bool.false_eq_true, if_false]
        by_cases hb : c = c!"\\"
        · rw [if_pos hb]
          have := go true true (by simp) (fun _ => by rw [htk, hb]; simp) (by simp)
          rw [hb] at this ⊢
          simpa only [scanString, if_true] using this
        · rw [if_neg hb]
          by_cases hq : c = c!"\""
          · rw [if_pos hq]
            have := finishString_bytes h hend hlt he he'
            rw [hq]
            simpa [scanString] using this
          · rw [if_neg hq]
            have := go false escaped (by
              intro hh
              rw [htk, List.mem_append, List.mem_singleton, not_or]
              exact ⟨he hh, fun hx => hb hx.symm⟩) (fun x => by rw [htk]; exact List.mem_append_left _ (he' x)) (by simp)
            simp only [scanString, if_neg hb, if_neg hq]
            exact this
    · rw [if_neg hlt, bufferMore_eof hend, rest_of_window h (rest_eof hend) (n := n) (by omega)]
      simp only [scanString]
      exact ⟨p, rfl, h, Nat.le_refl _, fun _ => List.prefix_refl _⟩

theorem readString_bytes (fuel : Nat) (p : Parser) (h : p.Ok) (hend : p.eof = true) (hne : p.tail < p.head) (hf : p.work < fuel) :
    AgreesB p (readString fuel p) (Op.stream .readString p.rest) := by
  have ha : 0 < p.available := by unfold available; omega
  obtain ⟨c, hc⟩ := buffer_get h ha
  have hr := rest_get h ha
  rw [hc] at hr
  rw [Nat.add_zero] at hc
  have hd := drop_cons_of_get hr.symm
  rw [List.drop_zero] at hd
  obtain ⟨a1, a2, a3⟩ := advance h (show 1 ≤ p.available from ha)
  unfold readString current
  simp only [hc]
  by_cases hq : c = c!"\""
  · rw [if_neg (by simpa using hq)]
    have := readStringLoop_bytes fuel _ 0 false false a1 hend (Nat.zero_le _) (by omega) (by simp) (by simp) (by simp)
    have := AgreesB.step h ha this
    rw [a2] at this
    rw [hd, hq]
    simp only [Op.stream, ne_eq, not_true_eq_false, if_false]
    simp only [List.take_zero, List.nil_append, List.drop_zero] at this
    exact this
  · rw [if_pos (by simpa using hq), hd]
    simp only [Op.stream]
    rw [if_pos (by simpa using hq)]
    exact ⟨p, rfl, h, Nat.le_refl _, fun _ => List.prefix_refl _⟩

theorem readNumberLoop_bytes (fuel : Nat) (p : Parser) (n : Nat) (h : p.Ok) (hend : p.eof = true) (hn : n ≤ p.available) (hf : p.work < fuel + n) :
    AgreesB p (readNumberLoop fuel p n)
      (match (p.rest.drop n).dropWhile numberChar with
        | [] => .err
        | s => .ok (p.rest.take n ++ (p.rest.drop n).takeWhile numberChar) s) := by
  induction fuel generalizing n with
  | zero =>
    have : p.available ≤ p.work := by unfold work; omega
    omega
  | succ fuel ih =>
    unfold readNumberLoop
    by_cases hlt : n < p.available
    · rw [if_pos hlt]
      obtain ⟨c, hc⟩ := buffer_get h hlt
      have hr := rest_get h hlt
      rw [hc] at hr
      have hd := drop_cons_of_get hr.symm
      have htk : p.rest.take (n + 1) = p.rest.take n ++ [c] := by
        rw [List.take_add_one, ← hr]; rfl
      simp only [hc]
      by_cases hnum : numberChar c = true
      · rw [if_neg (by
          simp only [numberChar, Bool.or_eq_true, decide_eq_true_eq] at hnum
          simp only [Bool.and_eq_true, Bool.not_eq_true', decide_eq_true_eq]
          rintro ⟨⟨n1, n2⟩, n3⟩
          rcases hnum with (h | h) | h
          · rw [h] at n1; simp at n1
          · exact n2 h
          · exact n3 h)]
        have := ih (n + 1) hlt (by omega)
        rw [hd]
        simp only [List.dropWhile_cons, List.takeWhile_cons, hnum, if_true]
        rw [htk, List.append_assoc, List.singleton_append] at this
        exact this
      · rw [if_pos (by simpa [numberChar] using hnum)]
        have h1 := h.th
        have h2 := h.hb
        have hn' := hlt
        unfold available at hn'
        obtain ⟨a1, a2, a3⟩ := advance h hn
        rw [if_neg (by omega), window_take_rest h hn, hd]
        simp only [List.dropWhile_cons, List.takeWhile_cons, hnum]
        rw [if_neg (by simp), if_neg (by simp), List.append_nil]
        exact ⟨_, rfl, a1, hend, by rw [a2, hd], by omega, rfl, by rw [← hd]; exact List.drop_suffix _ _, fun _ => rfl⟩
    · rw [if_neg hlt, bufferMore_eof hend, rest_of_window h (rest_eof hend) (n := n) (by omega)]
      exact ⟨p, rfl, h, Nat.le_refl _, fun _ => List.prefix_refl _⟩

theorem readNumber_bytes (fuel : Nat) (p : Parser) (h : p.Ok) (hend : p.eof = true) (hne : p.tail < p.head) (hf : p.work < fuel) :
    AgreesB p (readNumber fuel p) (Op.stream .readNumber p.rest) := by
  have ha : 0 < p.available := by unfold available; omega
  obtain ⟨c, hc⟩ := buffer_get h ha
  have hr := rest_get h ha
  rw [hc] at hr
  rw [Nat.add_zero] at hc
  have hd := drop_cons_of_get hr.symm
  rw [List.drop_zero] at hd
  have htk : p.rest.take 1 = [c] := by rw [hd]; rfl
  unfold readNumber current
  simp only [hc]
  by_cases hq : isCharDigit c = true
  · rw [if_neg (by simpa using hq)]
    have := readNumberLoop_bytes fuel p 1 h hend ha (by omega)
    rw [htk, List.singleton_append] at this
    rw [hd]
    simp only [Op.stream, hq, Bool.not_true, Bool.false_eq_true, if_false]
    exact this
  · rw [if_pos (by simpa using hq), hd]
    simp only [Op.stream]
    rw [if_pos (by simpa using hq)]
    exact ⟨p, rfl, h, Nat.le_refl _, fun _ => List.prefix_refl _⟩

theorem grow_bytes {p p' : Parser} {n : Nat} (h : p.grow n = some p') : p.buffer <+: p'.buffer ∧ p'.eof = p.eof := by
  unfold grow at h
  simp only at h
  split at h
  · split at h
    · cases h
    · cases h
      exact ⟨List.prefix_append _ _, rfl⟩
  · cases h
    exact ⟨List.prefix_refl _, rfl⟩

theorem require_bytes (fuel : Nat) (p : Parser) (n : Nat) (h : p.Ok) (hend : p.eof = true) :
    (n ≤ p.rest.length → require (fuel + 1) p n = .ok () p ∧ n ≤ p.available) ∧
    (p.rest.length < n → ∃ p', require (fuel + 1) p n = .err p' ∧ p'.Ok ∧ p.buffer <+: p'.buffer) := by
  have hl : p.rest.length = p.available := by rw [rest_eof hend, window_length h]
  unfold require
  by_cases ha : p.available < n
  · rw [if_pos ha]
    obtain ⟨p1, e1, g1, _⟩ := grow_spec h ha
    obtain ⟨g2, g3⟩ := grow_bytes e1
    rw [e1]
    simp only
    rw [bufferMore_eof (by rw [g3, hend])]
    exact ⟨fun hh => by omega, fun _ => ⟨p1, rfl, g1, g2⟩⟩
  · rw [if_neg ha]
    exact ⟨fun _ => ⟨rfl, by omega⟩, fun hh => by omega⟩

theorem readN_bytes (fuel : Nat) (p : Parser) (h : p.Ok) (hend : p.eof = true) (hf : p.work < fuel) (w : Word) :
    AgreesB p (readN fuel p w.first w.length) (Op.stream (.readWord w) p.rest) := by
  obtain ⟨fuel, rfl⟩ : ∃ f, fuel = f + 1 := ⟨fuel - 1, by omega⟩
  obtain ⟨r1, r2⟩ := require_bytes fuel p w.length h hend
  rcases hd : p.rest with _ | ⟨c, s⟩
  · trivial
  · unfold readN
    simp only [Op.stream]
    by_cases hl : (c :: s).length < w.length
    · rw [if_pos hl]
      obtain ⟨p', e, g, g'⟩ := r2 (by rw [hd]; exact hl)
      rw [e]
      exact ⟨p', rfl, g, g'.length_le, fun _ => g'⟩
    · rw [if_neg hl]
      obtain ⟨e, g5⟩ := r1 (by rw [hd]; omega)
      have hw : 0 < w.length := by cases w <;> decide
      have hr := rest_get h (n := 0) (by omega)
      rw [hd, Nat.add_zero, List.getElem?_cons_zero] at hr
      rw [e]
      unfold current
      simp only [hr]
      by_cases hq : c = w.first
      · rw [if_neg (show ¬ c ≠ w.first by simpa using hq), if_neg (show ¬ c ≠ w.first by simpa using hq)]
        have h1 := h.th
        have h2 := h.hb
        have h5 := g5
        unfold available at h5
        obtain ⟨a1, a2, a3⟩ := advance h g5
        rw [if_neg (by omega), window_take_rest h g5, ← hd]
        exact ⟨_, rfl, a1, hend, a2, by omega, rfl, List.drop_suffix _ _, fun _ => rfl⟩
      · rw [if_pos (show c ≠ w.first from hq), if_pos (show c ≠ w.first from hq)]
        exact ⟨p, rfl, h, Nat.le_refl _, fun _ => List.prefix_refl _⟩

theorem consume_bytes (p : Parser) (h : p.Ok) (hend : p.eof = true) (hne : p.tail < p.head) (t : Punct) :
    AgreesB p (p.consume t.type) (Op.stream (.consume t) p.rest) := by
  have ha : 0 < p.available := by unfold available; omega
  obtain ⟨c, hc⟩ := buffer_get h ha
  have hr := rest_get h ha
  rw [hc] at hr
  rw [Nat.add_zero] at hc
  have hd := drop_cons_of_get hr.symm
  rw [List.drop_zero] at hd
  obtain ⟨a1, a2, a3⟩ := advance h (show 1 ≤ p.available from ha)
  rw [hd]
  unfold consume current Op.stream
  simp only [hc]
  by_cases hq : symbolTable c = t.type
  · rw [if_neg (by simpa using hq), if_pos hq]
    exact ⟨_, rfl, a1, hend, a2, by omega, rfl, List.drop_suffix _ _, fun _ => rfl⟩
  · rw [if_pos (by simpa using hq), if_neg hq]
    exact ⟨p, rfl, h, Nat.le_refl _, fun _ => List.prefix_refl _⟩

end Parser

theorem Op.run_bytes (o : Op) (fuel : Nat) (p : Parser) (h : p.Ok) (hend : p.eof = true) (hf : p.work < fuel)
    (hne : o.needsByte = true → p.tail < p.head) : AgreesB p (o.run fuel p) (o.stream p.rest) := by
  cases o with
  | skipWhitespace => exact p.skipWhitespace_bytes fuel h hend hf
  | current =>
    have hne := hne rfl
    have ha : 0 < p.available := by unfold Parser.available; omega
    obtain ⟨c, hc⟩ := Parser.buffer_get h ha
    have hr := Parser.rest_get h ha
    rw [hc] at hr
    rw [Nat.add_zero] at hc
    have hd := Parser.drop_cons_of_get hr.symm
    rw [List.drop_zero] at hd
    unfold Op.run Parser.current Op.stream
    simp only [hc]
    rw [hd]
    exact ⟨p, rfl, h, hend, hd, Nat.le_refl _, rfl, hd ▸ List.suffix_refl _, fun _ => rfl⟩
  | consume t => exact p.consume_bytes h hend (hne rfl) t
  | readString => exact Parser.readString_bytes fuel p h hend (hne rfl) hf
  | readNumber => exact Parser.readNumber_bytes fuel p h hend (hne rfl) hf
  | readWord w => exact Parser.readN_bytes fuel p h hend hf w

end Verif
