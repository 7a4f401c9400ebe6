import Verif.Model.JsonString
import Verif.Spec.JsonString

/-!
# Lemmas about decoding escapes in place
-/

namespace Verif

theorem writeAt_eq (buf : List UInt8) (pos : Nat) (cs : List UInt8) (h : pos + cs.length ≤ buf.length) :
    writeAt buf pos cs = buf.take pos ++ cs ++ buf.drop (pos + cs.length) := by
  induction cs generalizing buf pos with
  | nil => simp [writeAt]
  | cons c cs ih =>
    rw [writeAt, ih _ _ (by simp at h ⊢; omega)]
    simp only [List.length_cons] at h ⊢
    have h1 : (buf.set pos c).take (pos + 1) = buf.take pos ++ [c] := by
      rw [List.take_add_one, List.take_set_of_le (Nat.le_refl _)]
      simp [List.getElem?_set_self (by omega : pos < buf.length)]
    rw [h1, List.drop_set_of_lt (by omega)]
    simp only [List.append_assoc, List.singleton_append, List.cons_append, List.nil_append]
    congr 4
    omega

theorem byte_forall {P : UInt8 → Prop} (h : ∀ k : Fin 256, P (UInt8.ofNat k.val)) (c : UInt8) : P c := by
  have := h ⟨c.toNat, c.toNat_lt⟩
  simpa using this

theorem hexDigit_eq (c : UInt8) : hexDigit? c = Spec.hexDigits.lookup c := by
  revert c
  exact byte_forall (by decide +kernel)

theorem hexDigit_lt {c : UInt8} {d : Nat} (h : Spec.hexDigits.lookup c = some d) : d < 16 := by
  have : ∀ c : UInt8, ∀ d ∈ Spec.hexDigits.lookup c, d < 16 := byte_forall (by decide +kernel)
  exact this c d h

theorem hexRune_eq (a b c d : UInt8) : hexRune [a, b, c, d] = Spec.hex4 a b c d := by
  simp only [hexRune, List.foldl_cons, List.foldl_nil, hexDigit_eq, Spec.hex4]
  cases Spec.hexDigits.lookup a <;> cases Spec.hexDigits.lookup b <;> cases Spec.hexDigits.lookup c <;>
    cases Spec.hexDigits.lookup d <;> simp

theorem hex4_lt {a b c d : UInt8} {r : Nat} (h : Spec.hex4 a b c d = some r) : r < 65536 := by
  unfold Spec.hex4 at h
  rcases ha : Spec.hexDigits.lookup a with _ | a' <;> rw [ha] at h
  · exact absurd h (by simp)
  rcases hb : Spec.hexDigits.lookup b with _ | b' <;> rw [hb] at h
  · exact absurd h (by simp)
  rcases hc : Spec.hexDigits.lookup c with _ | c' <;> rw [hc] at h
  · exact absurd h (by simp)
  rcases hd : Spec.hexDigits.lookup d with _ | d' <;> rw [hd] at h
  · exact absurd h (by simp)
  have := hexDigit_lt ha
  have := hexDigit_lt hb
  have := hexDigit_lt hc
  have := hexDigit_lt hd
  simp at h
  omega

theorem encodeRune_eq {r : Nat} (h : r < 65536) : encodeRune r = Spec.runeBytes r := by
  unfold encodeRune Spec.runeBytes
  by_cases h1 : r < 0x80
  · rw [if_pos h1, if_neg (by unfold Spec.Surrogate; omega)]
    unfold Spec.utf8
    rw [if_pos (by omega)]
  · rw [if_neg h1]
    by_cases h2 : r < 0x800
    · rw [if_pos h2, if_neg (by unfold Spec.Surrogate; omega)]
      unfold Spec.utf8
      rw [if_neg (by omega), if_pos (by omega)]
    · rw [if_neg h2]
      by_cases h3 : 0xD800 ≤ r ∧ r ≤ 0xDFFF
      · rw [if_pos h3, if_pos (by unfold Spec.Surrogate; omega)]
        decide
      · rw [if_neg h3, if_neg (by unfold Spec.Surrogate; omega)]
        unfold Spec.utf8
        rw [if_neg (by omega), if_neg (by omega), if_pos (by omega)]

theorem encodeRune_length (r : Nat) : (encodeRune r).length ≤ 3 := by
  unfold encodeRune
  split
  · simp
  · split
    · simp
    · split <;> simp

theorem Unescape.append_fits {st : Unescape} (c : UInt8) (idx : Nat) (h : st.n < st.buf.length) :
    st.append c idx = .continue { buf := st.buf.take st.n ++ [c] ++ st.buf.drop (st.n + 1), n := st.n + 1, idx } := by
  have := writeAt_eq st.buf st.n [c] (by simp; omega)
  simp only [writeAt, List.length_singleton] at this
  rw [Unescape.append, if_pos h, this]

/-- The state after `k` bytes `cs` were written behind the position. -/
theorem unescape_written {buf : List UInt8} {n idx : Nat} (cs : List UInt8) (h : n + cs.length ≤ idx) (hi : idx ≤ buf.length) :
    (buf.take n ++ cs ++ buf.drop (n + cs.length)).length = buf.length ∧
    (buf.take n ++ cs ++ buf.drop (n + cs.length)).take (n + cs.length) = buf.take n ++ cs ∧
    (buf.take n ++ cs ++ buf.drop (n + cs.length)).drop idx = buf.drop idx := by
  refine ⟨by simp; omega, ?_, ?_⟩
  · rw [List.take_left' (by simp; omega)]
  · rw [List.drop_append, List.drop_of_length_le (by simp; omega), List.nil_append, List.drop_drop]
    congr 1
    simp
    omega

/-- What the rest of the loop does from a state in which the decoded bytes are behind the position. -/
theorem unescapeLoop_spec (fuel : Nat) (st : Unescape) (hn : st.n ≤ st.idx) (hi : st.idx ≤ st.buf.length)
    (hf : st.buf.length - st.idx < fuel) :
    match Spec.unescape (st.buf.drop st.idx) with
    | none => ∃ st', unescapeLoop fuel st = some (.err st') ∧ st'.buf.length = st.buf.length
    | some out => ∃ st', unescapeLoop fuel st = some (.done st') ∧ st'.buf.length = st.buf.length ∧
        st'.n = st.n + out.length ∧ st'.n ≤ st'.idx ∧ st'.idx = st'.buf.length ∧ st'.buf.take st'.n = st.buf.take st.n ++ out := by
  induction fuel generalizing st with
  | zero => omega
  | succ fuel ih =>
    obtain ⟨buf, n, idx⟩ := st
    simp only at hn hi hf ⊢
    -- the rest of the loop after writing `cs`
    have key : ∀ (cs : List UInt8) (idx' : Nat), n + cs.length ≤ idx' → idx < idx' → idx' ≤ buf.length →
        Unescape.step ⟨buf, n, idx⟩ =
          .continue { buf := buf.take n ++ cs ++ buf.drop (n + cs.length), n := n + cs.length, idx := idx' } →
        match (Spec.unescape (buf.drop idx')).map (cs ++ ·) with
        | none => ∃ st', unescapeLoop (fuel + 1) ⟨buf, n, idx⟩ = some (.err st') ∧ st'.buf.length = buf.length
        | some out => ∃ st', unescapeLoop (fuel + 1) ⟨buf, n, idx⟩ = some (.done st') ∧ st'.buf.length = buf.length ∧
            st'.n = n + out.length ∧ st'.n ≤ st'.idx ∧ st'.idx = st'.buf.length ∧ st'.buf.take st'.n = buf.take n ++ out := by
      intro cs idx' h1 h2 h3 hs
      obtain ⟨w1, w2, w3⟩ := unescape_written cs h1 h3
      have := ih { buf := buf.take n ++ cs ++ buf.drop (n + cs.length), n := n + cs.length, idx := idx' } h1
        (by simp only [w1]; exact h3) (by simp only [w1]; omega)
      simp only [w1, w2, w3] at this
      rw [unescapeLoop, hs]
      rcases hu : Spec.unescape (buf.drop idx') with _ | out
      · rw [hu] at this
        exact this
      · rw [hu] at this
        obtain ⟨st', e1, e2, e3, e4, e5, e6⟩ := this
        refine ⟨st', e1, e2, ?_, e4, e5, ?_⟩
        · rw [e3, List.length_append]; omega
        · rw [e6, List.append_assoc]
    rcases hd : buf.drop idx with _ | ⟨c, rest⟩
    · have hl : idx = buf.length := by
        have := congrArg List.length hd
        simp at this
        omega
      have hg : buf[idx]? = none := by simp [hl]
      have hs : Unescape.step ⟨buf, n, idx⟩ = .done ⟨buf, n, idx⟩ := by
        unfold Unescape.step
        simp only [hg]
      rw [unescapeLoop, hs]
      exact ⟨⟨buf, n, idx⟩, rfl, rfl, by simp, hn, hl, by simp⟩
    · have hg : buf[idx]? = some c := by
        rw [← List.head?_drop, hd]; rfl
      have hlen : buf.length = idx + 1 + rest.length := by
        have := congrArg List.length hd
        simp at this
        omega
      have hd1 : buf.drop (idx + 1) = rest := by
        rw [← List.drop_drop, hd]; rfl
      unfold Spec.unescape
      by_cases hc : c = c!"\\"
      · rw [if_neg (by simp [hc])]
        rcases rest with _ | ⟨e, rest⟩
        · have hs : Unescape.step ⟨buf, n, idx⟩ = .err ⟨buf, n, idx⟩ := by
            unfold Unescape.step
            simp only [hg, hc]
            rw [if_neg (by simp), if_pos (by simp at hlen ⊢; omega)]
          exact ⟨⟨buf, n, idx⟩, by simp only [unescapeLoop, hs], rfl⟩
        · simp only [List.length_cons] at hlen
          have hg1 : buf[idx + 1]? = some e := by
            rw [← List.head?_drop, hd1]; rfl
          have hd2 : buf.drop (idx + 2) = rest := by
            rw [show idx + 2 = idx + 1 + 1 from rfl, ← List.drop_drop, hd1]; rfl
          by_cases he : e = c!"u"
          · simp only [if_neg (show ¬ e ≠ c!"u" by simp [he])]
            by_cases hsh : idx + 1 + 4 ≥ buf.length
            · have hs : Unescape.step ⟨buf, n, idx⟩ = .err ⟨buf, n, idx⟩ := by
                unfold Unescape.step
                simp only [hg, hc, hg1, he]
                rw [if_neg (by simp), if_neg (by simp; omega), if_neg (by simp), if_pos hsh]
              have : ∀ h1 h2 h3 h4 r, rest ≠ h1 :: h2 :: h3 :: h4 :: r := by
                rintro h1 h2 h3 h4 r rfl
                simp only [List.length_cons] at hlen
                omega
              split
              · rename_i heq
                split at heq
                · exact absurd rfl (this _ _ _ _ _)
                · exact ⟨⟨buf, n, idx⟩, by simp only [unescapeLoop, hs], rfl⟩
              · rename_i heq
                split at heq
                · exact absurd rfl (this _ _ _ _ _)
                · exact absurd heq (by simp)
            · rcases rest with _ | ⟨h1, _ | ⟨h2, _ | ⟨h3, _ | ⟨h4, rest⟩⟩⟩⟩ <;> simp only [List.length_nil, List.length_cons] at hlen <;>
                try omega
              have hd6 : buf.drop (idx + 1 + 1 + 4) = rest := by
                rw [← List.drop_drop, show idx + 1 + 1 = idx + 2 from rfl, hd2]; rfl
              have ht : (buf.drop (idx + 1 + 1)).take 4 = [h1, h2, h3, h4] := by
                rw [show idx + 1 + 1 = idx + 2 from rfl, hd2]; rfl
              have hs0 : Unescape.step ⟨buf, n, idx⟩ = match hexRune [h1, h2, h3, h4] with
                  | none => .err ⟨buf, n, idx⟩
                  | some r => if n + 4 > buf.length then .panic
                    else .continue { buf := writeAt buf n (encodeRune r), n := n + (encodeRune r).length, idx := idx + 1 + 1 + 4 } := by
                unfold Unescape.step
                simp only [hg, hc, hg1, he]
                rw [if_neg (by simp), if_neg (by simp; omega), if_neg (by simp), if_neg (by omega), if_neg (by omega), ht]
                rfl
              rw [hexRune_eq] at hs0
              simp only
              rcases hx : Spec.hex4 h1 h2 h3 h4 with _ | r
              · rw [hx] at hs0
                exact ⟨⟨buf, n, idx⟩, by simp only [unescapeLoop, hs0], rfl⟩
              · rw [hx] at hs0
                have hl3 := encodeRune_length r
                simp only at hs0 ⊢
                rw [if_neg (by omega), writeAt_eq _ _ _ (by omega)] at hs0
                have := key (encodeRune r) (idx + 1 + 1 + 4) (by omega) (by omega) (by omega) hs0
                rw [hd6, encodeRune_eq (hex4_lt hx)] at this
                exact this
          · have hs : Unescape.step ⟨buf, n, idx⟩ = .continue { buf := buf.take n ++ [e] ++ buf.drop (n + 1), n := n + 1, idx := idx + 2 } := by
              unfold Unescape.step
              simp only [hg, hc, hg1]
              rw [if_neg (by simp), if_neg (by simp; omega), if_pos he, Unescape.append_fits _ _ (by simp; omega)]
            simp only [if_pos he]
            have := key [e] (idx + 2) (by simp; omega) (by omega) (by omega) hs
            rw [hd2] at this
            exact this
      · have hs : Unescape.step ⟨buf, n, idx⟩ = .continue { buf := buf.take n ++ [c] ++ buf.drop (n + 1), n := n + 1, idx := idx + 1 } := by
          unfold Unescape.step
          simp only [hg]
          rw [if_pos hc, Unescape.append_fits _ _ (by simp; omega)]
        rw [if_pos hc]
        have := key [c] (idx + 1) (by simp; omega) (by omega) (by omega) hs
        rw [hd1] at this
        exact this

end Verif
