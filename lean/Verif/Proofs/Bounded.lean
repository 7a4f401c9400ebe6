import Verif.Proofs.Diverge

/-!
# Tokens that fill the buffer

What the parser does with them, and that a decoder that comes to one of them does not end.
-/

namespace Verif

/-! ## More fuel for an operation -/

namespace Parser

theorem skipWhitespace_mono {fuel fuel' : Nat} (hf : fuel ≤ fuel') (p : Parser) (h : skipWhitespace fuel p ≠ .timeout) :
    skipWhitespace fuel' p = skipWhitespace fuel p := by
  induction fuel generalizing fuel' p with
  | zero => exact absurd rfl h
  | succ fuel ih =>
    obtain ⟨fuel', rfl⟩ : ∃ k, fuel' = k + 1 := ⟨fuel' - 1, by omega⟩
    unfold skipWhitespace at h ⊢
    split
    · rename_i ht
      rw [if_pos ht] at h
      split
      · rfl
      · rename_i c hc
        rw [hc] at h
        simp only at h
        split
        · rename_i hsp
          rw [if_pos hsp] at h
          exact ih (by omega) _ h
        · rfl
    · rename_i ht
      rw [if_neg ht] at h
      cases hb : p.bufferMore with
      | ok u q =>
        rw [hb] at h
        exact ih (by omega) _ h
      | err q => rfl
      | panic => rfl
      | timeout => rfl

theorem readStringLoop_mono {fuel fuel' : Nat} (hf : fuel ≤ fuel') (p : Parser) (n : Nat) (e e' : Bool)
    (h : readStringLoop fuel p n e e' ≠ .timeout) : readStringLoop fuel' p n e e' = readStringLoop fuel p n e e' := by
  induction fuel generalizing fuel' p n e e' with
  | zero => exact absurd rfl h
  | succ fuel ih =>
    obtain ⟨fuel', rfl⟩ : ∃ k, fuel' = k + 1 := ⟨fuel' - 1, by omega⟩
    unfold readStringLoop at h ⊢
    split
    · rename_i ht
      rw [if_pos ht] at h
      split
      · rfl
      · rename_i c hc
        rw [hc] at h
        simp only at h
        split
        · rename_i he
          rw [if_pos he] at h
          exact ih (by omega) _ _ _ _ h
        · rename_i he
          rw [if_neg he] at h
          split
          · rename_i hb
            rw [if_pos hb] at h
            exact ih (by omega) _ _ _ _ h
          · rename_i hb
            rw [if_neg hb] at h
            split
            · rfl
            · rename_i hq
              rw [if_neg hq] at h
              exact ih (by omega) _ _ _ _ h
    · rename_i ht
      rw [if_neg ht] at h
      cases hb : p.bufferMore with
      | ok u q =>
        rw [hb] at h
        exact ih (by omega) _ _ _ _ h
      | err q => rfl
      | panic => rfl
      | timeout => rfl

theorem readNumberLoop_mono {fuel fuel' : Nat} (hf : fuel ≤ fuel') (p : Parser) (n : Nat)
    (h : readNumberLoop fuel p n ≠ .timeout) : readNumberLoop fuel' p n = readNumberLoop fuel p n := by
  induction fuel generalizing fuel' p n with
  | zero => exact absurd rfl h
  | succ fuel ih =>
    obtain ⟨fuel', rfl⟩ : ∃ k, fuel' = k + 1 := ⟨fuel' - 1, by omega⟩
    unfold readNumberLoop at h ⊢
    split
    · rename_i ht
      rw [if_pos ht] at h
      split
      · rfl
      · rename_i c hc
        rw [hc] at h
        simp only at h
        split
        · rfl
        · rename_i he
          rw [if_neg he] at h
          exact ih (by omega) _ _ h
    · rename_i ht
      rw [if_neg ht] at h
      cases hb : p.bufferMore with
      | ok u q =>
        rw [hb] at h
        exact ih (by omega) _ _ h
      | err q => rfl
      | panic => rfl
      | timeout => rfl

theorem require_mono {fuel fuel' : Nat} (hf : fuel ≤ fuel') (p : Parser) (n : Nat)
    (h : require fuel p n ≠ .timeout) : require fuel' p n = require fuel p n := by
  induction fuel generalizing fuel' p with
  | zero => exact absurd rfl h
  | succ fuel ih =>
    obtain ⟨fuel', rfl⟩ : ∃ k, fuel' = k + 1 := ⟨fuel' - 1, by omega⟩
    unfold require at h ⊢
    split
    · rename_i ht
      rw [if_pos ht] at h
      split
      · rfl
      · rename_i q hq
        rw [hq] at h
        simp only at h
        cases hb : q.bufferMore with
        | ok u q =>
          rw [hb] at h
          exact ih (by omega) _ h
        | err q => rfl
        | panic => rfl
        | timeout => rfl
    · rfl

end Parser

theorem Op.run_mono {fuel fuel' : Nat} (hf : fuel ≤ fuel') (o : Op) (p : Parser) (h : o.run fuel p ≠ .timeout) : o.run fuel' p = o.run fuel p := by
  cases o with
  | skipWhitespace => exact Parser.skipWhitespace_mono hf p h
  | current => rfl
  | consume t => rfl
  | readString =>
    simp only [Op.run, Parser.readString] at h ⊢
    split
    · rfl
    · rename_i c hc
      rw [hc] at h
      simp only at h
      split
      · rfl
      · rename_i hq
        rw [if_neg hq] at h
        exact Parser.readStringLoop_mono hf _ _ _ _ h
  | readNumber =>
    simp only [Op.run, Parser.readNumber] at h ⊢
    split
    · rfl
    · rename_i c hc
      rw [hc] at h
      simp only at h
      split
      · rfl
      · rename_i hq
        rw [if_neg hq] at h
        exact Parser.readNumberLoop_mono hf _ _ h
  | readWord w =>
    simp only [Op.run, Parser.readN] at h ⊢
    have hr : Parser.require fuel p w.length ≠ .timeout := by
      intro hr
      rw [hr] at h
      exact h rfl
    rw [Parser.require_mono hf p _ hr]

/-- More fuel changes only the outcome "out of fuel". -/
theorem Prog.Le.run {σ : Type} {p q : Prog σ} (h : p.Le q) {fuel fuel' : Nat} (hf : fuel ≤ fuel') (ps : Parser) (ht : p.run fuel ps ≠ .timeout) :
    q.run fuel' ps = p.run fuel ps := by
  induction h generalizing ps with
  | timeout _ => exact absurd rfl ht
  | done m => rfl
  | fail m => rfl
  | op o m hk ih =>
    simp only [Prog.run] at ht ⊢
    have ho : o.run fuel ps ≠ .timeout := by
      intro ho
      rw [ho] at ht
      exact ht rfl
    rw [Op.run_mono hf o ps ho]
    cases hr : o.run fuel ps with
    | ok a ps' =>
      rw [hr] at ht
      exact ih a ps' ht
    | err _ => rfl
    | panic => rfl
    | timeout => rfl

/-! ## The size of the buffer -/

namespace Parser

theorem bufferMore_ok {p p' : Parser} (h : p.Ok) (hb : p.bufferMore = .ok () p') : p'.Ok ∧ p'.buffer.length = p.buffer.length := by
  rcases bufferMore_spec h with ⟨q, e, _⟩ | ⟨q, e, g1, g2, _⟩
  · rw [e] at hb
    cases hb
  · rw [e] at hb
    injection hb with _ hb
    rw [← hb]
    exact ⟨g1, g2⟩

theorem skipWhitespace_length (fuel : Nat) {p p' : Parser} (h : p.Ok) (hr : skipWhitespace fuel p = .ok () p') : p'.buffer.length = p.buffer.length := by
  induction fuel generalizing p with
  | zero => cases hr
  | succ fuel ih =>
    unfold skipWhitespace at hr
    split at hr
    · rename_i ht
      split at hr
      · cases hr
      · split at hr
        · have := ih (p := { p with tail := p.tail + 1 }) (advance h (show 1 ≤ p.available by unfold available; omega)).1 hr
          exact this
        · injection hr with _ hr
          rw [hr]
    · split at hr
      · rename_i hb
        obtain ⟨g1, g2⟩ := bufferMore_ok h hb
        rw [ih g1 hr, g2]
      · rename_i hne
        exact absurd hr (hne _ _)

theorem finishString_length {p p' : Parser} {n : Nat} {escaped : Bool} {v : Str} (h : p.Ok) (hn : n < p.available)
    (hr : p.finishString n escaped = .ok v p') : p'.buffer.length = p.buffer.length := by
  have h1 := h.th
  have h2 := h.hb
  have hn' := hn
  unfold available at hn'
  have hv := window_take_rest h (show n ≤ p.available by omega)
  have hlen : (p.rest.take n).length = n := by
    have := available_le_rest h
    simp only [List.length_take]
    omega
  unfold finishString at hr
  rw [if_neg (by omega)] at hr
  simp only [hv] at hr
  split at hr
  · have hd := unescapeLoop_spec ((p.rest.take n).length + 1) { buf := p.rest.take n, n := 0, idx := 0 } (Nat.le_refl _)
      (Nat.zero_le _) (by simp)
    simp only [List.drop_zero, List.take_zero, List.nil_append] at hd
    rw [show unescapeLoop ((p.rest.take n).length + 1) { buf := p.rest.take n, n := 0, idx := 0 } = decodeStringInPlace (p.rest.take n)
      from rfl] at hd
    rcases hu : Spec.unescape (p.rest.take n) with _ | v
    · rw [hu] at hd
      obtain ⟨st, e1, e2⟩ := hd
      rw [e1] at hr
      cases hr
    · rw [hu] at hd
      obtain ⟨st, e1, e2, e3, e4, e5, e6⟩ := hd
      rw [e1] at hr
      obtain ⟨o1, o2, o3⟩ := overwrite h (show n ≤ p.available by omega) (v := st.buf) (by omega)
      injection hr with _ hr
      rw [← hr]
      exact o2
  · injection hr with _ hr
    rw [← hr]

theorem readStringLoop_length (fuel : Nat) {p p' : Parser} {n : Nat} {e e' : Bool} {v : Str} (h : p.Ok)
    (hr : readStringLoop fuel p n e e' = .ok v p') : p'.buffer.length = p.buffer.length := by
  induction fuel generalizing p n e e' with
  | zero => cases hr
  | succ fuel ih =>
    unfold readStringLoop at hr
    split at hr
    · rename_i hn
      split at hr
      · cases hr
      · split at hr
        · exact ih h hr
        · split at hr
          · exact ih h hr
          · split at hr
            · exact finishString_length h hn hr
            · exact ih h hr
    · split at hr
      · rename_i hb
        obtain ⟨g1, g2⟩ := bufferMore_ok h hb
        rw [ih g1 hr, g2]
      all_goals cases hr

theorem readNumberLoop_length (fuel : Nat) {p p' : Parser} {n : Nat} {v : Str} (h : p.Ok)
    (hr : readNumberLoop fuel p n = .ok v p') : p'.buffer.length = p.buffer.length := by
  induction fuel generalizing p n with
  | zero => cases hr
  | succ fuel ih =>
    unfold readNumberLoop at hr
    split at hr
    · split at hr
      · cases hr
      · split at hr
        · split at hr
          · cases hr
          · injection hr with _ hr
            rw [← hr]
        · exact ih h hr
    · split at hr
      · rename_i hb
        obtain ⟨g1, g2⟩ := bufferMore_ok h hb
        rw [ih g1 hr, g2]
      all_goals cases hr

theorem require_length (fuel : Nat) {p p' : Parser} {n : Nat} (h : p.Ok) (hn : n ≤ p.buffer.length)
    (hr : require fuel p n = .ok () p') : p'.buffer.length = p.buffer.length := by
  induction fuel generalizing p with
  | zero => cases hr
  | succ fuel ih =>
    unfold require at hr
    split at hr
    · rename_i ha
      have hg : p.grow n = some p := by
        unfold grow
        simp only
        rw [if_neg (by omega)]
      rw [hg] at hr
      simp only at hr
      split at hr
      · rename_i hb
        obtain ⟨g1, g2⟩ := bufferMore_ok h hb
        rw [ih g1 (by omega) hr, g2]
      · rename_i hne
        exact absurd hr (hne _ _)
    · injection hr with _ hr
      rw [hr]

end Parser

/-- An operation does not change the size of a buffer that is large enough for the word `false`. -/
theorem Op.run_length {o : Op} {fuel : Nat} {p p' : Parser} {a : o.Res} (h : p.Ok) (h5 : 5 ≤ p.buffer.length)
    (hne : o.needsByte = true → p.tail < p.head) (hr : o.run fuel p = .ok a p') : p'.buffer.length = p.buffer.length := by
  cases o with
  | skipWhitespace => exact Parser.skipWhitespace_length fuel h hr
  | current =>
    simp only [Op.run] at hr
    split at hr
    · cases hr
    · injection hr with _ hr
      rw [hr]
  | consume t =>
    simp only [Op.run, Parser.consume] at hr
    split at hr
    · cases hr
    · split at hr
      · cases hr
      · injection hr with _ hr
        rw [← hr]
  | readString =>
    have hne := hne rfl
    simp only [Op.run, Parser.readString] at hr
    split at hr
    · cases hr
    · split at hr
      · cases hr
      · have := Parser.readStringLoop_length fuel (p := { p with tail := p.tail + 1 })
          (Parser.advance h (show 1 ≤ p.available by unfold Parser.available; omega)).1 hr
        exact this
  | readNumber =>
    simp only [Op.run, Parser.readNumber] at hr
    split at hr
    · cases hr
    · split at hr
      · cases hr
      · exact Parser.readNumberLoop_length fuel h hr
  | readWord w =>
    simp only [Op.run, Parser.readN] at hr
    split at hr
    · rename_i hq
      have := Parser.require_length fuel h (show w.length ≤ _ by cases w <;> (simp only [Word.length]; omega)) hq
      split at hr
      · cases hr
      · split at hr
        · cases hr
        · split at hr
          · cases hr
          · injection hr with _ hr
            rw [← hr]
            exact this
    all_goals cases hr

/-! ## Tokens that do not fit -/

theorem stringEnd_le (esc : Bool) (s : List UInt8) : stringEnd esc s ≤ s.length := by
  induction s generalizing esc with
  | nil => simp [stringEnd]
  | cons c s ih =>
    cases esc with
    | true =>
      have := ih false
      simp only [stringEnd, List.length_cons]
      omega
    | false =>
      have h1 := ih false
      have h2 := ih true
      simp only [stringEnd, List.length_cons]
      split
      · omega
      · split <;> omega

namespace Parser

/-- The loop that searches the end of a string, if that does not fit into the buffer: it does not end; except that the reader may end exactly
where the buffer does. -/
theorem readStringLoop_full (fuel : Nat) (p : Parser) (n : Nat) (e e' : Bool) (h : p.Ok) (hn : n ≤ p.available)
    (hl : p.buffer.length ≤ n + stringEnd e (p.rest.drop n)) :
    readStringLoop fuel p n e e' = .timeout ∨ (p.rest.length = p.buffer.length ∧ ∃ p', readStringLoop fuel p n e e' = .err p') := by
  induction fuel generalizing p n e e' with
  | zero => exact .inl rfl
  | succ fuel ih =>
    unfold readStringLoop
    have hav := available_le h
    by_cases ha : n < p.available
    · rw [if_pos ha]
      obtain ⟨c, hc⟩ := buffer_get h ha
      have hr := rest_get h ha
      rw [hc] at hr ⊢
      rw [drop_cons_of_get hr.symm] at hl
      simp only
      cases e with
      | true =>
        rw [if_pos rfl]
        simp only [stringEnd] at hl
        exact ih p (n + 1) false e' h ha (by omega)
      | false =>
        simp only [stringEnd] at hl
        rw [if_neg (by simp)]
        by_cases hb : c = c!"\\"
        · rw [if_pos hb] at hl ⊢
          exact ih p (n + 1) true true h ha (by omega)
        · rw [if_neg hb] at hl ⊢
          by_cases hq : c = c!"\""
          · rw [if_pos hq] at hl
            omega
          · rw [if_neg hq] at hl ⊢
            exact ih p (n + 1) false e' h ha (by omega)
    · rw [if_neg ha]
      rcases bufferMore_spec h with ⟨p', e1, _, _, hw⟩ | ⟨p', e1, g1, g2, g3, g4, _⟩
      · rw [e1]
        refine .inr ⟨?_, p', rfl⟩
        have h1 := congrArg List.length hw
        rw [window_length h] at h1
        have h2 := stringEnd_le e (p.rest.drop n)
        rw [List.length_drop] at h2
        omega
      · rw [e1]
        simp only
        have := ih p' n e e' g1 (by omega) (by rw [g2, g3]; exact hl)
        rw [g2, g3] at this
        exact this

/-- The same for a number. -/
theorem readNumberLoop_full (fuel : Nat) (p : Parser) (n : Nat) (h : p.Ok) (hn : n ≤ p.available)
    (hl : p.buffer.length ≤ n + ((p.rest.drop n).takeWhile numberChar).length) :
    readNumberLoop fuel p n = .timeout ∨ (p.rest.length = p.buffer.length ∧ ∃ p', readNumberLoop fuel p n = .err p') := by
  induction fuel generalizing p n with
  | zero => exact .inl rfl
  | succ fuel ih =>
    unfold readNumberLoop
    have hav := available_le h
    by_cases ha : n < p.available
    · rw [if_pos ha]
      obtain ⟨c, hc⟩ := buffer_get h ha
      have hr := rest_get h ha
      rw [hc] at hr ⊢
      rw [drop_cons_of_get hr.symm, List.takeWhile_cons] at hl
      simp only
      by_cases hnum : numberChar c = true
      · rw [if_pos hnum, List.length_cons] at hl
        rw [if_neg (by
          simp only [numberChar, Bool.or_eq_true, decide_eq_true_eq] at hnum
          simp only [Bool.and_eq_true, Bool.not_eq_true', decide_eq_true_eq]
          rintro ⟨⟨n1, n2⟩, n3⟩
          rcases hnum with (h | h) | h
          · rw [h] at n1; simp at n1
          · exact n2 h
          · exact n3 h)]
        exact ih p (n + 1) h ha (by omega)
      · rw [if_neg hnum, List.length_nil] at hl
        omega
    · rw [if_neg ha]
      rcases bufferMore_spec h with ⟨p', e1, _, _, hw⟩ | ⟨p', e1, g1, g2, g3, g4, _⟩
      · rw [e1]
        refine .inr ⟨?_, p', rfl⟩
        have h1 := congrArg List.length hw
        rw [window_length h] at h1
        have h2 := (List.takeWhile_prefix (l := p.rest.drop n) numberChar).length_le
        rw [List.length_drop] at h2
        omega
      · rw [e1]
        simp only
        have := ih p' n g1 (by omega) (by rw [g2, g3]; exact hl)
        rw [g2, g3] at this
        exact this

end Parser

/-- The bytes that are looked at for the string or number: behind the quote, or all. -/
def Op.behind : Op → List UInt8 → List UInt8
  | .readString, s => s.drop 1
  | _, s => s

/-- An operation with a token that does not fit into the buffer. -/
theorem Op.run_full {o : Op} {fuel : Nat} {p : Parser} (h : p.Ok) (hne : p.tail < p.head) (hfit : ¬ o.Fits p.buffer.length p.rest) :
    o.run fuel p = .timeout ∨ ((o.behind p.rest).length = p.buffer.length ∧ ∃ p', o.run fuel p = .err p') := by
  have ha : 1 ≤ p.available := by unfold Parser.available; omega
  cases o with
  | readString =>
    simp only [Op.Fits] at hfit
    obtain ⟨t, ht⟩ := Classical.not_forall.mp hfit
    obtain ⟨hr, hl⟩ := Classical.not_imp.mp ht
    obtain ⟨a1, a2, _⟩ := Parser.advance h ha
    simp only [Op.run, Parser.readString, Parser.current_ready h hne hr]
    rw [if_neg (by simp)]
    have := Parser.readStringLoop_full fuel _ 0 false false a1 (Nat.zero_le _) (by
      rw [a2, hr, List.drop_zero, Nat.zero_add]
      simpa using hl)
    rw [a2] at this
    exact this
  | readNumber =>
    simp only [Op.Fits] at hfit
    obtain ⟨c, ht⟩ := Classical.not_forall.mp hfit
    obtain ⟨t, ht⟩ := Classical.not_forall.mp ht
    obtain ⟨hr, ht⟩ := Classical.not_imp.mp ht
    obtain ⟨hd, hl⟩ := Classical.not_imp.mp ht
    simp only [Op.run, Parser.readNumber, Parser.current_ready h hne hr]
    rw [if_neg (by simp [hd])]
    refine Parser.readNumberLoop_full fuel p 1 h ha ?_
    rw [hr, List.drop_one, List.tail_cons]
    omega
  | _ => exact absurd trivial hfit

/-- A program comes to an operation with a token that does not fit into a buffer with `size` bytes; `over`: and (up to this size) is not all there
is. -/
def Prog.Reaches {σ : Type} (size : Nat) (over : Bool) : Prog σ → Bool → List UInt8 → Prop
  | .done _, _, _ => False
  | .fail _, _, _ => False
  | .timeout, _, _ => False
  | .op o _ k, r, s =>
    (o.needsByte && !r) = false ∧
      ((¬ o.Fits size s ∧ (over = true ↔ size < (o.behind s).length)) ∨
        (o.Fits size s ∧ ∃ a s', o.stream s = .ok a s' ∧ (k a).Reaches size over o.readyAfter s'))

/-- Such a program does not end. -/
theorem Prog.run_reaches {σ : Type} {size : Nat} (h5 : 5 ≤ size) {over : Bool} (prog : Prog σ) (fuel : Nat) (p : Parser) (ready : Bool) (h : p.Ok)
    (hs : p.buffer.length = size) (hf : p.work < fuel) (hr : ready = true → p.tail < p.head) (hreach : prog.Reaches size over ready p.rest) :
    prog.run fuel p = .timeout ∨ (over = false ∧ ∃ m p', prog.run fuel p = .err m p') := by
  induction prog generalizing p ready with
  | done m => exact hreach.elim
  | fail m => exact hreach.elim
  | timeout => exact hreach.elim
  | op o m k ih =>
    obtain ⟨hb, hreach⟩ := hreach
    have hne : o.needsByte = true → p.tail < p.head := by
      intro hn
      rw [hn] at hb
      exact hr (by simpa using hb)
    simp only [Prog.run]
    rcases hreach with ⟨hfit, hover⟩ | ⟨hfit, a, s', hst, hreach⟩
    · have hn : o.needsByte = true := by
        cases o with
        | skipWhitespace => exact absurd trivial hfit
        | _ => rfl
      rcases Op.run_full (fuel := fuel) h (hne hn) (by rw [hs]; exact hfit) with e | ⟨hl, p', e⟩
      · rw [e]
        exact .inl rfl
      · rw [e]
        refine .inr ⟨?_, m, p', rfl⟩
        cases over with
        | false => rfl
        | true =>
          have := hover.mp rfl
          omega
    · have ha := o.run_agrees (by omega) fuel p h (show size ≤ _ by omega) hf hfit hne
      rw [hst] at ha
      obtain ⟨p', e1, e2, e3, _, e5⟩ := ha
      have hlen := Op.run_length h (by omega) hne e1
      have := ih a p' o.readyAfter e2 (by omega) (by omega) (fun hh => Op.run_ready e1 hh hne) (by rw [e3]; exact hreach)
      rw [e1]
      exact this

/-- A program comes to such an operation, or all its tokens fit. -/
theorem Prog.fits_or_reaches {σ : Type} {size : Nat} (prog : Prog σ) (ready : Bool) (s : List UInt8) (hbad : prog.stream ready s ≠ .bad) :
    prog.Fits size s ∨ prog.Reaches size true ready s ∨ prog.Reaches size false ready s := by
  induction prog generalizing ready s with
  | done m => exact .inl trivial
  | fail m => exact .inl trivial
  | timeout => exact .inl trivial
  | op o m k ih =>
    simp only [Prog.stream] at hbad
    have hb : (o.needsByte && !ready) = false := by
      refine Classical.byContradiction fun hb => ?_
      rw [if_pos (by simpa using hb)] at hbad
      exact hbad rfl
    rw [if_neg (by simp [hb])] at hbad
    unfold Prog.Fits Prog.Reaches
    by_cases hfit : o.Fits size s
    · cases hst : o.stream s with
      | ok a s' =>
        rw [hst] at hbad
        rcases ih a _ _ hbad with h | h | h
        · exact .inl ⟨hfit, h⟩
        · exact .inr (.inl ⟨hb, .inr ⟨hfit, a, s', rfl, h⟩⟩)
        · exact .inr (.inr ⟨hb, .inr ⟨hfit, a, s', rfl, h⟩⟩)
      | err => exact .inl ⟨hfit, trivial⟩
      | bad => exact .inl ⟨hfit, trivial⟩
    · by_cases hl : size < (o.behind s).length
      · exact .inr (.inl ⟨hb, .inl ⟨hfit, by simp [hl]⟩⟩)
      · exact .inr (.inr ⟨hb, .inl ⟨hfit, by simp only [Bool.false_eq_true, false_iff]; exact hl⟩⟩)

theorem Prog.Le.reaches {σ : Type} {size : Nat} {over : Bool} {p q : Prog σ} (h : p.Le q) (r : Bool) (s : List UInt8) (hr : p.Reaches size over r s) :
    q.Reaches size over r s := by
  induction h generalizing r s with
  | timeout _ => exact hr.elim
  | done m => exact hr
  | fail m => exact hr
  | op o m hk ih =>
    obtain ⟨hb, hr⟩ := hr
    refine ⟨hb, ?_⟩
    rcases hr with hr | ⟨hfit, a, s', hst, hr⟩
    · exact .inl hr
    · exact .inr ⟨hfit, a, s', hst, ih a _ _ hr⟩

theorem Prog.Le.fits {σ : Type} {size : Nat} {p q : Prog σ} (h : p.Le q) (r : Bool) (s : List UInt8) (hr : p.Fits size s) (ht : p.stream r s ≠ .timeout)
    (hbad : p.stream r s ≠ .bad) : q.Fits size s := by
  induction h generalizing r s with
  | timeout _ => exact absurd rfl ht
  | done m => exact hr
  | fail m => exact hr
  | op o m hk ih =>
    unfold Prog.stream at ht hbad
    unfold Prog.Fits at hr ⊢
    refine ⟨hr.1, ?_⟩
    by_cases hn : (o.needsByte && !r) = true
    · rw [if_pos hn] at hbad
      exact absurd rfl hbad
    · rw [if_neg hn] at ht hbad
      have h2 := hr.2
      split
      · rename_i a s' hst
        rw [hst] at ht hbad h2
        exact ih a _ _ h2 ht hbad
      · trivial

/-! ## Readers that do not report the end to a full buffer -/

namespace Parser

/-- The end was not reported, and it is not reported with an empty slice, nor together with the last bytes. -/
def Quiet (p : Parser) : Prop := p.eof = false ∧ p.input.idle = true ∧ ∀ s ∈ p.input.script, s.signal = false

theorem bufferMore_quiet {p : Parser} (h : p.Ok) (hq : p.Quiet) (hl : p.buffer.length ≤ p.rest.length) :
    ∃ p', p.bufferMore = .ok () p' ∧ p'.Quiet := by
  obtain ⟨q1, q2, q3⟩ := hq
  have h1 := h.th
  have h2 := h.hb
  have hav := available_le h
  have hrest : p.rest.length = p.available + p.input.data.length := by
    unfold rest
    rw [q1]
    simp [window_length h]
  have hread : ∀ n, (n = 0 ∨ p.input.data ≠ []) → ∃ got r', p.input.read n = (got, .nil, r') ∧ r'.idle = true ∧ ∀ s ∈ r'.script, s.signal = false := by
    intro n hn
    unfold Reader.read
    by_cases h0 : n = 0
    · rw [if_pos ⟨h0, q2⟩]
      exact ⟨_, _, rfl, q2, q3⟩
    · rw [if_neg (fun hh => h0 hh.1)]
      split
      · rename_i st script hsc
        have hsig : st.signal = false := q3 st (by rw [hsc]; exact List.mem_cons_self)
        simp only [hsig]
        rw [if_neg (by simp)]
        exact ⟨_, _, rfl, q2, fun x hx => q3 x (by rw [hsc]; exact List.mem_cons_of_mem _ hx)⟩
      · rw [if_neg (by rcases hn with hn | hn; exact absurd hn h0; exact hn)]
        exact ⟨_, _, rfl, q2, q3⟩
  have hn : ∀ n, n ≤ p.buffer.length - p.available → n = 0 ∨ p.input.data ≠ [] := by
    intro n hn
    by_cases h0 : n = 0
    · exact .inl h0
    · refine .inr fun hd => ?_
      rw [hd, List.length_nil] at hrest
      omega
  unfold bufferMore
  rw [if_neg (by simp [q1])]
  by_cases ht : p.tail > 0
  · rw [if_pos ht, if_pos ⟨h1, h2, hav⟩]
    simp only
    have hlen : ((p.buffer.drop p.tail).take p.available ++ p.buffer.drop p.available).length = p.buffer.length := by
      have : ((p.buffer.drop p.tail).take p.available).length = p.available := by
        simp only [List.length_take, List.length_drop, available]; omega
      rw [List.length_append, this, List.length_drop]
      omega
    rw [if_neg (by omega), hlen]
    obtain ⟨got, r', e, e1, e2⟩ := hread (p.buffer.length - p.available) (hn _ (Nat.le_refl _))
    rw [e]
    exact ⟨_, rfl, q1, e1, e2⟩
  · rw [if_neg ht]
    simp only
    rw [if_neg (by omega)]
    obtain ⟨got, r', e, e1, e2⟩ := hread (p.buffer.length - p.head) (hn _ (by unfold available; omega))
    rw [e]
    exact ⟨_, rfl, q1, e1, e2⟩

theorem skipWhitespace_quiet (fuel : Nat) {p p' : Parser} (h : p.Ok) (hq : p.Quiet) (hl : p.buffer.length ≤ (p.rest.dropWhile isCharSpace).length)
    (hr : skipWhitespace fuel p = .ok () p') : p'.Quiet := by
  induction fuel generalizing p with
  | zero => cases hr
  | succ fuel ih =>
    unfold skipWhitespace at hr
    split at hr
    · rename_i ht
      have ha : 1 ≤ p.available := by unfold available; omega
      obtain ⟨c, hc⟩ := buffer_get h ha
      have hg := rest_get h ha
      rw [hc] at hg
      rw [Nat.add_zero] at hc
      rw [hc] at hr
      have hd := drop_cons_of_get hg.symm
      rw [List.drop_zero] at hd
      simp only at hr
      obtain ⟨a1, a2, _⟩ := advance h ha
      split at hr
      · rename_i hsp
        refine ih (p := { p with tail := p.tail + 1 }) a1 hq ?_ hr
        rw [a2]
        rw [hd, List.dropWhile_cons, if_pos hsp] at hl
        exact hl
      · injection hr with _ hr
        rw [← hr]
        exact hq
    · have hle : (p.rest.dropWhile isCharSpace).length ≤ p.rest.length := (List.dropWhile_suffix _).length_le
      obtain ⟨p1, e, q⟩ := bufferMore_quiet h hq (by omega)
      rw [e] at hr
      obtain ⟨g1, g2⟩ := bufferMore_ok h e
      rcases bufferMore_spec h with ⟨p2, e2, _⟩ | ⟨p2, e2, _, _, g3, _⟩
      · rw [e] at e2
        cases e2
      · rw [e] at e2
        injection e2 with _ e2
        subst e2
        exact ih g1 q (by rw [g2, g3]; exact hl) hr

theorem finishString_quiet {p p' : Parser} {n : Nat} {escaped : Bool} {v : Str} (hq : p.Quiet) (hr : p.finishString n escaped = .ok v p') : p'.Quiet := by
  unfold finishString at hr
  split at hr
  · cases hr
  · simp only at hr
    split at hr
    · split at hr
      · injection hr with _ hr
        rw [← hr]
        exact hq
      all_goals cases hr
    · injection hr with _ hr
      rw [← hr]
      exact hq

/-- A step of a loop that needs more bytes. -/
theorem more_quiet {p : Parser} (h : p.Ok) (hq : p.Quiet) (hl : p.buffer.length ≤ p.rest.length) :
    ∃ p', p.bufferMore = .ok () p' ∧ p'.Quiet ∧ p'.Ok ∧ p'.buffer.length = p.buffer.length ∧ p'.rest = p.rest ∧ p.available ≤ p'.available := by
  obtain ⟨p1, e, q⟩ := bufferMore_quiet h hq hl
  rcases bufferMore_spec h with ⟨p2, e2, _⟩ | ⟨p2, e2, g1, g2, g3, g4, _⟩
  · rw [e] at e2
    cases e2
  · rw [e] at e2
    injection e2 with _ e2
    subst e2
    exact ⟨p1, e, q, g1, g2, g3, g4⟩

theorem readStringLoop_quiet (fuel : Nat) {p p' : Parser} {n : Nat} {e e' : Bool} {v : Str} (h : p.Ok) (hq : p.Quiet) (hl : p.buffer.length ≤ p.rest.length)
    (hr : readStringLoop fuel p n e e' = .ok v p') : p'.Quiet := by
  induction fuel generalizing p n e e' with
  | zero => cases hr
  | succ fuel ih =>
    unfold readStringLoop at hr
    split at hr
    · split at hr
      · cases hr
      · split at hr
        · exact ih h hq hl hr
        · split at hr
          · exact ih h hq hl hr
          · split at hr
            · exact finishString_quiet hq hr
            · exact ih h hq hl hr
    · obtain ⟨p1, e1, g1, g2, g3, g4, _⟩ := more_quiet h hq hl
      rw [e1] at hr
      exact ih g2 g1 (by rw [g3, g4]; exact hl) hr

theorem readNumberLoop_quiet (fuel : Nat) {p p' : Parser} {n : Nat} {v : Str} (h : p.Ok) (hq : p.Quiet) (hl : p.buffer.length ≤ p.rest.length)
    (hr : readNumberLoop fuel p n = .ok v p') : p'.Quiet := by
  induction fuel generalizing p n with
  | zero => cases hr
  | succ fuel ih =>
    unfold readNumberLoop at hr
    split at hr
    · split at hr
      · cases hr
      · split at hr
        · split at hr
          · cases hr
          · injection hr with _ hr
            rw [← hr]
            exact hq
        · exact ih h hq hl hr
    · obtain ⟨p1, e1, g1, g2, g3, g4, _⟩ := more_quiet h hq hl
      rw [e1] at hr
      exact ih g2 g1 (by rw [g3, g4]; exact hl) hr

theorem require_quiet (fuel : Nat) {p p' : Parser} {n : Nat} (h : p.Ok) (hq : p.Quiet) (hl : p.buffer.length ≤ p.rest.length) (hn : n ≤ p.buffer.length)
    (hr : require fuel p n = .ok () p') : p'.Quiet := by
  induction fuel generalizing p with
  | zero => cases hr
  | succ fuel ih =>
    unfold require at hr
    split at hr
    · rename_i ha
      have hg : p.grow n = some p := by
        unfold grow
        simp only
        rw [if_neg (by omega)]
      rw [hg] at hr
      simp only at hr
      obtain ⟨p1, e1, g1, g2, g3, g4, _⟩ := more_quiet h hq hl
      rw [e1] at hr
      exact ih g2 g1 (by rw [g3, g4]; exact hl) (by rw [g3]; exact hn) hr
    · injection hr with _ hr
      rw [← hr]
      exact hq

/-- With such a reader the loops do not end either if the reader ends exactly where the buffer does. -/
theorem readStringLoop_stuck (fuel : Nat) (p : Parser) (n : Nat) (e e' : Bool) (h : p.Ok) (hq : p.Quiet) (hn : n ≤ p.available)
    (hl : p.buffer.length ≤ n + stringEnd e (p.rest.drop n)) : readStringLoop fuel p n e e' = .timeout := by
  have hlen : p.buffer.length ≤ p.rest.length := by
    have h1 := stringEnd_le e (p.rest.drop n)
    rw [List.length_drop] at h1
    have h2 := available_le_rest h
    omega
  induction fuel generalizing p n e e' with
  | zero => rfl
  | succ fuel ih =>
    unfold readStringLoop
    have hav := available_le h
    by_cases ha : n < p.available
    · rw [if_pos ha]
      obtain ⟨c, hc⟩ := buffer_get h ha
      have hr := rest_get h ha
      rw [hc] at hr ⊢
      rw [drop_cons_of_get hr.symm] at hl
      simp only
      cases e with
      | true =>
        rw [if_pos rfl]
        simp only [stringEnd] at hl
        exact ih p (n + 1) false e' h hq ha (by omega) hlen
      | false =>
        simp only [stringEnd] at hl
        rw [if_neg (by simp)]
        by_cases hb : c = c!"\\"
        · rw [if_pos hb] at hl ⊢
          exact ih p (n + 1) true true h hq ha (by omega) hlen
        · rw [if_neg hb] at hl ⊢
          by_cases hqu : c = c!"\""
          · rw [if_pos hqu] at hl
            omega
          · rw [if_neg hqu] at hl ⊢
            exact ih p (n + 1) false e' h hq ha (by omega) hlen
    · rw [if_neg ha]
      obtain ⟨p1, e1, g1, g2, g3, g4, g5⟩ := more_quiet h hq hlen
      rw [e1]
      exact ih p1 n e e' g2 g1 (by omega) (by rw [g3, g4]; exact hl) (by rw [g3, g4]; exact hlen)

theorem readNumberLoop_stuck (fuel : Nat) (p : Parser) (n : Nat) (h : p.Ok) (hq : p.Quiet) (hn : n ≤ p.available)
    (hl : p.buffer.length ≤ n + ((p.rest.drop n).takeWhile numberChar).length) : readNumberLoop fuel p n = .timeout := by
  have hlen : p.buffer.length ≤ p.rest.length := by
    have h1 := (List.takeWhile_prefix (l := p.rest.drop n) numberChar).length_le
    rw [List.length_drop] at h1
    have h2 := available_le_rest h
    omega
  induction fuel generalizing p n with
  | zero => rfl
  | succ fuel ih =>
    unfold readNumberLoop
    have hav := available_le h
    by_cases ha : n < p.available
    · rw [if_pos ha]
      obtain ⟨c, hc⟩ := buffer_get h ha
      have hr := rest_get h ha
      rw [hc] at hr ⊢
      rw [drop_cons_of_get hr.symm, List.takeWhile_cons] at hl
      simp only
      by_cases hnum : numberChar c = true
      · rw [if_pos hnum, List.length_cons] at hl
        rw [if_neg (by
          simp only [numberChar, Bool.or_eq_true, decide_eq_true_eq] at hnum
          simp only [Bool.and_eq_true, Bool.not_eq_true', decide_eq_true_eq]
          rintro ⟨⟨n1, n2⟩, n3⟩
          rcases hnum with (h | h) | h
          · rw [h] at n1; simp at n1
          · exact n2 h
          · exact n3 h)]
        exact ih p (n + 1) h hq ha (by omega) hlen
      · rw [if_neg hnum, List.length_nil] at hl
        omega
    · rw [if_neg ha]
      obtain ⟨p1, e1, g1, g2, g3, g4, g5⟩ := more_quiet h hq hlen
      rw [e1]
      exact ih p1 n g2 g1 (by omega) (by rw [g3, g4]; exact hl) (by rw [g3, g4]; exact hlen)

end Parser

theorem Op.run_quiet {o : Op} {fuel : Nat} {p p' : Parser} {a : o.Res} (h : p.Ok) (h5 : 5 ≤ p.buffer.length) (hq : p.Quiet)
    {s' : List UInt8} (hst : o.stream p.rest = .ok a s') (hl : p.buffer.length ≤ s'.length) (hne : o.needsByte = true → p.tail < p.head) (hr : o.run fuel p = .ok a p') : p'.Quiet := by
  have heats := o.stream_eats hst
  have hlen : p.buffer.length ≤ p.rest.length := by omega
  cases o with
  | skipWhitespace =>
    refine Parser.skipWhitespace_quiet fuel h hq ?_ hr
    simp only [Op.stream] at hst
    split at hst
    · cases hst
    · injection hst with _ hst
      rw [hst]
      exact hl
  | current =>
    simp only [Op.run] at hr
    split at hr
    · cases hr
    · injection hr with _ hr
      rw [← hr]
      exact hq
  | consume t =>
    simp only [Op.run, Parser.consume] at hr
    split at hr
    · cases hr
    · split at hr
      · cases hr
      · injection hr with _ hr
        rw [← hr]
        exact hq
  | readString =>
    have hne := hne rfl
    have ha : 1 ≤ p.available := by unfold Parser.available; omega
    obtain ⟨a1, a2, _⟩ := Parser.advance h ha
    simp only [Op.eats] at heats
    simp only [Op.run, Parser.readString] at hr
    split at hr
    · cases hr
    · split at hr
      · cases hr
      · refine Parser.readStringLoop_quiet fuel (p := { p with tail := p.tail + 1 }) a1 hq ?_ hr
        rw [a2, List.length_drop]
        show p.buffer.length ≤ _
        omega
  | readNumber =>
    simp only [Op.run, Parser.readNumber] at hr
    split at hr
    · cases hr
    · split at hr
      · cases hr
      · exact Parser.readNumberLoop_quiet fuel h hq hlen hr
  | readWord w =>
    simp only [Op.run, Parser.readN] at hr
    split at hr
    · rename_i hq'
      have := Parser.require_quiet fuel h hq hlen (show w.length ≤ _ by cases w <;> (simp only [Word.length]; omega)) hq'
      split at hr
      · cases hr
      · split at hr
        · cases hr
        · split at hr
          · cases hr
          · injection hr with _ hr
            rw [← hr]
            exact this
    all_goals cases hr

/-- The bytes behind which a program comes to a token that does not fit. -/
theorem Prog.Reaches.length {σ : Type} {size : Nat} {over : Bool} {prog : Prog σ} {r : Bool} {s : List UInt8} (h : prog.Reaches size over r s) :
    size ≤ s.length := by
  induction prog generalizing r s with
  | done m => exact h.elim
  | fail m => exact h.elim
  | timeout => exact h.elim
  | op o m k ih =>
    obtain ⟨_, ⟨hfit, _⟩ | ⟨_, a, s', hst, h⟩⟩ := h
    · cases o with
      | readString =>
        obtain ⟨t, ht⟩ := Classical.not_forall.mp hfit
        obtain ⟨rfl, hl⟩ := Classical.not_imp.mp ht
        have := stringEnd_le false t
        rw [List.length_cons]
        omega
      | readNumber =>
        obtain ⟨c, ht⟩ := Classical.not_forall.mp hfit
        obtain ⟨t, ht⟩ := Classical.not_forall.mp ht
        obtain ⟨rfl, ht⟩ := Classical.not_imp.mp ht
        obtain ⟨_, hl⟩ := Classical.not_imp.mp ht
        have := (List.takeWhile_prefix (l := t) numberChar).length_le
        rw [List.length_cons]
        omega
      | _ => exact absurd trivial hfit
    · have h1 := ih a h
      have h2 := o.stream_eats hst
      omega

/-- With a reader that does not report the end to a full buffer, such a program does not end. -/
theorem Prog.run_stuck {σ : Type} {size : Nat} (h5 : 5 ≤ size) {over : Bool} (prog : Prog σ) (fuel : Nat) (p : Parser) (ready : Bool) (h : p.Ok)
    (hq : p.Quiet) (hs : p.buffer.length = size) (hf : p.work < fuel) (hr : ready = true → p.tail < p.head) (hreach : prog.Reaches size over ready p.rest) :
    prog.run fuel p = .timeout := by
  induction prog generalizing p ready with
  | done m => exact hreach.elim
  | fail m => exact hreach.elim
  | timeout => exact hreach.elim
  | op o m k ih =>
    obtain ⟨hb, hreach⟩ := hreach
    have hne : o.needsByte = true → p.tail < p.head := by
      intro hn
      rw [hn] at hb
      exact hr (by simpa using hb)
    simp only [Prog.run]
    rcases hreach with ⟨hfit, _⟩ | ⟨hfit, a, s', hst, hreach⟩
    · cases o with
      | readString =>
        have hne := hne rfl
        have ha : 1 ≤ p.available := by unfold Parser.available; omega
        obtain ⟨t, ht⟩ := Classical.not_forall.mp hfit
        obtain ⟨hr, hl⟩ := Classical.not_imp.mp ht
        obtain ⟨a1, a2, _⟩ := Parser.advance h ha
        simp only [Op.run, Parser.readString, Parser.current_ready h hne hr]
        rw [if_neg (by simp)]
        have := Parser.readStringLoop_stuck fuel { p with tail := p.tail + 1 } 0 false false a1 hq (Nat.zero_le _) (by
          rw [a2, hr, List.drop_zero, Nat.zero_add]
          simp only [hs]
          simpa using hl)
        rw [this]
      | readNumber =>
        have hne := hne rfl
        have ha : 1 ≤ p.available := by unfold Parser.available; omega
        obtain ⟨c, ht⟩ := Classical.not_forall.mp hfit
        obtain ⟨t, ht⟩ := Classical.not_forall.mp ht
        obtain ⟨hr, ht⟩ := Classical.not_imp.mp ht
        obtain ⟨hd, hl⟩ := Classical.not_imp.mp ht
        simp only [Op.run, Parser.readNumber, Parser.current_ready h hne hr]
        rw [if_neg (by simp [hd])]
        have := Parser.readNumberLoop_stuck fuel p 1 h hq ha (by
          rw [hr, List.drop_one, List.tail_cons]
          omega)
        rw [this]
      | _ => exact absurd trivial hfit
    · have ha := o.run_agrees (by omega) fuel p h (show size ≤ _ by omega) hf hfit hne
      rw [hst] at ha
      obtain ⟨p', e1, e2, e3, _, e5⟩ := ha
      have hlen := Op.run_length h (by omega) hne e1
      have hq' := Op.run_quiet h (by omega) hq hst (by have := hreach.length; omega) hne e1
      have := ih a p' o.readyAfter e2 hq' (by omega) (by omega) (fun hh => Op.run_ready e1 hh hne) (by rw [e3]; exact hreach)
      rw [e1]
      exact this

/-! ## Readers that report the end to a full buffer -/

namespace Parser

theorem read_idle (r : Reader) (n : Nat) : (r.read n).2.2.idle = r.idle := by
  unfold Reader.read
  split
  · rfl
  · split
    · simp only
      split <;> rfl
    · split <;> rfl

theorem bufferMore_idle {p p' : Parser} (hr : p.bufferMore = .ok () p') : p'.input.idle = p.input.idle := by
  unfold bufferMore at hr
  split at hr
  · cases hr
  · simp only at hr
    split at hr
    · cases hr
    · rename_i q hm
      have hq : q.input = p.input := by
        split at hm
        · split at hm
          · injection hm with hm
            rw [← hm]
          · cases hm
        · injection hm with hm
          rw [← hm]
      split at hr
      · cases hr
      · split at hr
        · split at hr
          · cases hr
          · injection hr with _ hr
            rw [← hr]
            show ((q.input.read _).2.2).idle = _
            rw [read_idle, hq]
        · cases hr
        · injection hr with _ hr
          rw [← hr]
          show ((q.input.read _).2.2).idle = _
          rw [read_idle, hq]

/-- A full buffer, and no bytes to come: the reader is asked until it reports the end. -/
theorem bufferMore_full {p : Parser} (h : p.Ok) (hi : p.input.idle = false) (hl : p.rest.length ≤ p.buffer.length) :
    (∃ p', p.bufferMore = .err p') ∨ ∃ p', p.bufferMore = .ok () p' ∧ p'.work < p.work := by
  rcases bufferMore_spec h with ⟨p', e, _⟩ | ⟨p', e, g1, g2, g3, g4, g5⟩
  · exact .inl ⟨p', e⟩
  · refine .inr ⟨p', e, ?_⟩
    have hav := available_le h
    by_cases hlt : p.available < p.buffer.length
    · exact g5 hlt
    · have h1 := h.th
      have h2 := h.hb
      have htail : p.tail = 0 := by unfold available at hlt; omega
      have hhead : p.head = p.buffer.length := by unfold available at hlt; omega
      have heof : p.eof = false := by
        refine Classical.byContradiction fun hne => ?_
        have he : p.eof = true := by simpa using hne
        unfold bufferMore at e
        rw [if_pos he] at e
        cases e
      have hdata : p.input.data = [] := by
        have : p.rest.length = p.available + p.input.data.length := by
          unfold rest
          rw [heof]
          simp [window_length h]
        have : p.input.data.length = 0 := by omega
        simpa using this
      unfold bufferMore at e
      rw [if_neg (by simp [heof]), if_neg (by omega)] at e
      simp only at e
      rw [if_neg (by omega), hhead, Nat.sub_self] at e
      have hread : (p.input.read 0 = ([], p.input.endErr, (p.input.read 0).2.2)) ∨
          ∃ r', p.input.read 0 = ([], .nil, r') ∧ r'.data = [] ∧ r'.script.length < p.input.script.length := by
        unfold Reader.read
        rw [if_neg (by simp [hi])]
        cases hsc : p.input.script with
        | nil =>
          simp only
          rw [if_pos hdata]
          exact .inl rfl
        | cons st script =>
          simp only [hdata, List.take_nil, List.drop_nil]
          split
          · exact .inl rfl
          · exact .inr ⟨_, rfl, rfl, by simp⟩
      rcases hread with hread | ⟨r', hread, hd', hs'⟩
      · rw [hread] at e
        have hee : p.input.endErr = .fail ∨ p.input.endErr = .eof := by
          unfold Reader.endErr
          split
          · exact .inl rfl
          · exact .inr rfl
        rcases hee with hee | hee
        · rw [hee] at e
          simp at e
        · rw [hee] at e
          simp at e
      · rw [hread] at e
        injection e with _ e
        rw [← e]
        unfold work available
        simp only [hhead, List.length_nil, hdata, hd', heof, Nat.add_zero, Bool.false_eq_true, if_false]
        omega

theorem skipWhitespace_idle (fuel : Nat) {p p' : Parser} (hr : skipWhitespace fuel p = .ok () p') : p'.input.idle = p.input.idle := by
  induction fuel generalizing p with
  | zero => cases hr
  | succ fuel ih =>
    unfold skipWhitespace at hr
    split at hr
    · split at hr
      · cases hr
      · split at hr
        · have := ih (p := { p with tail := p.tail + 1 }) hr
          exact this
        · injection hr with _ hr
          rw [hr]
    · split at hr
      · rename_i hb
        rw [ih hr, bufferMore_idle hb]
      · rename_i hne
        exact absurd hr (hne _ _)

theorem finishString_idle {p p' : Parser} {n : Nat} {escaped : Bool} {v : Str} (hr : p.finishString n escaped = .ok v p') : p'.input.idle = p.input.idle := by
  unfold finishString at hr
  split at hr
  · cases hr
  · simp only at hr
    split at hr
    · split at hr
      · injection hr with _ hr
        rw [← hr]
      all_goals cases hr
    · injection hr with _ hr
      rw [← hr]

theorem readStringLoop_idle (fuel : Nat) {p p' : Parser} {n : Nat} {e e' : Bool} {v : Str}
    (hr : readStringLoop fuel p n e e' = .ok v p') : p'.input.idle = p.input.idle := by
  induction fuel generalizing p n e e' with
  | zero => cases hr
  | succ fuel ih =>
    unfold readStringLoop at hr
    split at hr
    · split at hr
      · cases hr
      · split at hr
        · exact ih hr
        · split at hr
          · exact ih hr
          · split at hr
            · exact finishString_idle hr
            · exact ih hr
    · split at hr
      · rename_i hb
        rw [ih hr, bufferMore_idle hb]
      all_goals cases hr

theorem readNumberLoop_idle (fuel : Nat) {p p' : Parser} {n : Nat} {v : Str}
    (hr : readNumberLoop fuel p n = .ok v p') : p'.input.idle = p.input.idle := by
  induction fuel generalizing p n with
  | zero => cases hr
  | succ fuel ih =>
    unfold readNumberLoop at hr
    split at hr
    · split at hr
      · cases hr
      · split at hr
        · split at hr
          · cases hr
          · injection hr with _ hr
            rw [← hr]
        · exact ih hr
    · split at hr
      · rename_i hb
        rw [ih hr, bufferMore_idle hb]
      all_goals cases hr

theorem require_idle (fuel : Nat) {p p' : Parser} {n : Nat} (hr : require fuel p n = .ok () p') : p'.input.idle = p.input.idle := by
  induction fuel generalizing p with
  | zero => cases hr
  | succ fuel ih =>
    unfold require at hr
    split at hr
    · split at hr
      · cases hr
      · rename_i q hg
        have hq : q.input = p.input := by
          unfold grow at hg
          simp only at hg
          split at hg
          · split at hg
            · cases hg
            · injection hg with hg
              rw [← hg]
          · injection hg with hg
            rw [← hg]
        split at hr
        · rename_i hb
          rw [ih hr, bufferMore_idle hb, hq]
        · rename_i hne
          exact absurd hr (hne _ _)
    · injection hr with _ hr
      rw [hr]

theorem readStringLoop_err (fuel : Nat) (p : Parser) (n : Nat) (e e' : Bool) (h : p.Ok) (hi : p.input.idle = false) (hn : n ≤ p.available)
    (hf : p.work < fuel + n) (hl : p.buffer.length ≤ n + stringEnd e (p.rest.drop n)) (hlen : p.rest.length ≤ p.buffer.length) :
    ∃ p', readStringLoop fuel p n e e' = .err p' := by
  induction fuel generalizing p n e e' with
  | zero =>
    have : p.available ≤ p.work := by unfold work; omega
    omega
  | succ fuel ih =>
    unfold readStringLoop
    have hav := available_le h
    by_cases ha : n < p.available
    · rw [if_pos ha]
      obtain ⟨c, hc⟩ := buffer_get h ha
      have hr := rest_get h ha
      rw [hc] at hr ⊢
      rw [drop_cons_of_get hr.symm] at hl
      simp only
      cases e with
      | true =>
        rw [if_pos rfl]
        simp only [stringEnd] at hl
        exact ih p (n + 1) false e' h hi ha (by omega) (by omega) hlen
      | false =>
        simp only [stringEnd] at hl
        rw [if_neg (by simp)]
        by_cases hb : c = c!"\\"
        · rw [if_pos hb] at hl ⊢
          exact ih p (n + 1) true true h hi ha (by omega) (by omega) hlen
        · rw [if_neg hb] at hl ⊢
          by_cases hqu : c = c!"\""
          · rw [if_pos hqu] at hl
            omega
          · rw [if_neg hqu] at hl ⊢
            exact ih p (n + 1) false e' h hi ha (by omega) (by omega) hlen
    · rw [if_neg ha]
      rcases bufferMore_full h hi hlen with ⟨p1, e1⟩ | ⟨p1, e1, hw⟩
      · rw [e1]
        exact ⟨p1, rfl⟩
      · rw [e1]
        rcases bufferMore_spec h with ⟨p2, e2, _⟩ | ⟨p2, e2, g1, g2, g3, g4, _⟩
        · rw [e1] at e2
          cases e2
        · rw [e1] at e2
          injection e2 with _ e2
          subst e2
          exact ih p1 n e e' g1 (by rw [bufferMore_idle e1]; exact hi) (by omega) (by omega) (by rw [g2, g3]; exact hl) (by rw [g2, g3]; exact hlen)

theorem readNumberLoop_err (fuel : Nat) (p : Parser) (n : Nat) (h : p.Ok) (hi : p.input.idle = false) (hn : n ≤ p.available)
    (hf : p.work < fuel + n) (hl : p.buffer.length ≤ n + ((p.rest.drop n).takeWhile numberChar).length) (hlen : p.rest.length ≤ p.buffer.length) :
    ∃ p', readNumberLoop fuel p n = .err p' := by
  induction fuel generalizing p n with
  | zero =>
    have : p.available ≤ p.work := by unfold work; omega
    omega
  | succ fuel ih =>
    unfold readNumberLoop
    have hav := available_le h
    by_cases ha : n < p.available
    · rw [if_pos ha]
      obtain ⟨c, hc⟩ := buffer_get h ha
      have hr := rest_get h ha
      rw [hc] at hr ⊢
      rw [drop_cons_of_get hr.symm, List.takeWhile_cons] at hl
      simp only
      by_cases hnum : numberChar c = true
      · rw [if_pos hnum, List.length_cons] at hl
        rw [if_neg (by
          simp only [numberChar, Bool.or_eq_true, decide_eq_true_eq] at hnum
          simp only [Bool.and_eq_true, Bool.not_eq_true', decide_eq_true_eq]
          rintro ⟨⟨n1, n2⟩, n3⟩
          rcases hnum with (h | h) | h
          · rw [h] at n1; simp at n1
          · exact n2 h
          · exact n3 h)]
        exact ih p (n + 1) h hi ha (by omega) (by omega) hlen
      · rw [if_neg hnum, List.length_nil] at hl
        omega
    · rw [if_neg ha]
      rcases bufferMore_full h hi hlen with ⟨p1, e1⟩ | ⟨p1, e1, hw⟩
      · rw [e1]
        exact ⟨p1, rfl⟩
      · rw [e1]
        rcases bufferMore_spec h with ⟨p2, e2, _⟩ | ⟨p2, e2, g1, g2, g3, g4, _⟩
        · rw [e1] at e2
          cases e2
        · rw [e1] at e2
          injection e2 with _ e2
          subst e2
          exact ih p1 n g1 (by rw [bufferMore_idle e1]; exact hi) (by omega) (by omega) (by rw [g2, g3]; exact hl) (by rw [g2, g3]; exact hlen)

end Parser

theorem Op.run_idle {o : Op} {fuel : Nat} {p p' : Parser} {a : o.Res} (hr : o.run fuel p = .ok a p') : p'.input.idle = p.input.idle := by
  cases o with
  | skipWhitespace => exact Parser.skipWhitespace_idle fuel hr
  | current =>
    simp only [Op.run] at hr
    split at hr
    · cases hr
    · injection hr with _ hr
      rw [hr]
  | consume t =>
    simp only [Op.run, Parser.consume] at hr
    split at hr
    · cases hr
    · split at hr
      · cases hr
      · injection hr with _ hr
        rw [← hr]
  | readString =>
    simp only [Op.run, Parser.readString] at hr
    split at hr
    · cases hr
    · split at hr
      · cases hr
      · have := Parser.readStringLoop_idle fuel (p := { p with tail := p.tail + 1 }) hr
        exact this
  | readNumber =>
    simp only [Op.run, Parser.readNumber] at hr
    split at hr
    · cases hr
    · split at hr
      · cases hr
      · exact Parser.readNumberLoop_idle fuel hr
  | readWord w =>
    simp only [Op.run, Parser.readN] at hr
    split at hr
    · rename_i hq'
      have := Parser.require_idle fuel hq'
      split at hr
      · cases hr
      · split at hr
        · cases hr
        · split at hr
          · cases hr
          · injection hr with _ hr
            rw [← hr]
            exact this
    all_goals cases hr

/-- With a reader that reports the end to a full buffer, a program that comes to a token which fills the buffer, at the very end, fails. -/
theorem Prog.run_told {σ : Type} {size : Nat} (h5 : 5 ≤ size) (prog : Prog σ) (fuel : Nat) (p : Parser) (ready : Bool) (h : p.Ok)
    (hi : p.input.idle = false) (hs : p.buffer.length = size) (hf : p.work < fuel) (hr : ready = true → p.tail < p.head)
    (hreach : prog.Reaches size false ready p.rest) : ∃ m p', prog.run fuel p = .err m p' := by
  induction prog generalizing p ready with
  | done m => exact hreach.elim
  | fail m => exact hreach.elim
  | timeout => exact hreach.elim
  | op o m k ih =>
    obtain ⟨hb, hreach⟩ := hreach
    have hne : o.needsByte = true → p.tail < p.head := by
      intro hn
      rw [hn] at hb
      exact hr (by simpa using hb)
    simp only [Prog.run]
    rcases hreach with ⟨hfit, hover⟩ | ⟨hfit, a, s', hst, hreach⟩
    · have hover : ¬ size < (o.behind p.rest).length := by simpa using hover
      cases o with
      | readString =>
        have hne := hne rfl
        have ha : 1 ≤ p.available := by unfold Parser.available; omega
        obtain ⟨t, ht⟩ := Classical.not_forall.mp hfit
        obtain ⟨hr, hl⟩ := Classical.not_imp.mp ht
        obtain ⟨a1, a2, a3⟩ := Parser.advance h ha
        simp only [Op.run, Parser.readString, Parser.current_ready h hne hr]
        rw [if_neg (by simp)]
        obtain ⟨p', e⟩ := Parser.readStringLoop_err fuel { p with tail := p.tail + 1 } 0 false false a1 hi (Nat.zero_le _) (by omega) (by
          rw [a2, hr, List.drop_zero, Nat.zero_add]
          simp only [hs]
          simpa using hl) (by
          rw [a2]
          simp only [hs]
          simp only [Op.behind] at hover
          omega)
        rw [e]
        exact ⟨m, p', rfl⟩
      | readNumber =>
        have hne := hne rfl
        have ha : 1 ≤ p.available := by unfold Parser.available; omega
        obtain ⟨c, ht⟩ := Classical.not_forall.mp hfit
        obtain ⟨t, ht⟩ := Classical.not_forall.mp ht
        obtain ⟨hr, ht⟩ := Classical.not_imp.mp ht
        obtain ⟨hd, hl⟩ := Classical.not_imp.mp ht
        simp only [Op.run, Parser.readNumber, Parser.current_ready h hne hr]
        rw [if_neg (by simp [hd])]
        obtain ⟨p', e⟩ := Parser.readNumberLoop_err fuel p 1 h hi ha (by omega) (by
          rw [hr, List.drop_one, List.tail_cons]
          omega) (by
          simp only [Op.behind] at hover
          omega)
        rw [e]
        exact ⟨m, p', rfl⟩
      | _ => exact absurd trivial hfit
    · have ha := o.run_agrees (by omega) fuel p h (show size ≤ _ by omega) hf hfit hne
      rw [hst] at ha
      obtain ⟨p', e1, e2, e3, _, e5⟩ := ha
      have hlen := Op.run_length h (by omega) hne e1
      have := ih a p' o.readyAfter e2 (by rw [Op.run_idle e1]; exact hi) (by omega) (by omega) (fun hh => Op.run_ready e1 hh hne) (by rw [e3]; exact hreach)
      rw [e1]
      exact this

end Verif
