import Verif.Proofs.Fuel

/-!
# A string that fills the buffer

The parser never returns from it, whatever the fuel.
-/

namespace Verif

namespace Parser

/-- Skipping white space in front of something else, with any fuel. -/
theorem skipWhitespace_any (fuel : Nat) (p : Parser) (h : p.Ok) {c : UInt8} {s : List UInt8} (hs : p.rest.dropWhile isCharSpace = c :: s) :
    skipWhitespace fuel p = .timeout ∨
    ∃ p', skipWhitespace fuel p = .ok () p' ∧ p'.Ok ∧ p'.rest = c :: s ∧ p'.buffer.length = p.buffer.length ∧ p'.tail < p'.head := by
  induction fuel generalizing p with
  | zero => exact .inl rfl
  | succ fuel ih =>
    unfold skipWhitespace
    by_cases ht : p.tail < p.head
    · rw [if_pos ht]
      have ha : 0 < p.available := by unfold available; omega
      obtain ⟨d, hd⟩ := buffer_get h ha
      have hr := rest_get h ha
      rw [hd] at hr
      rw [Nat.add_zero] at hd
      rw [hd]
      have hcons := drop_cons_of_get hr.symm
      rw [List.drop_zero] at hcons
      rw [hcons, List.dropWhile_cons] at hs
      simp only
      by_cases hc : isCharSpace d = true
      · rw [if_pos hc] at hs ⊢
        obtain ⟨a1, a2, _⟩ := advance h (show 1 ≤ p.available from ha)
        exact ih _ a1 (by rw [a2]; exact hs)
      · rw [if_neg hc] at hs ⊢
        exact .inr ⟨p, rfl, h, by rw [hcons, hs], rfl, ht⟩
    · rw [if_neg ht]
      rcases bufferMore_spec h with ⟨p', e, _, _, hw⟩ | ⟨p', e, g1, g2, g3, _, _⟩
      · have : p.window = [] := by
          rw [← List.length_eq_zero_iff, window_length h]
          unfold available
          omega
        rw [hw, this] at hs
        simp at hs
      · rw [e]
        simp only
        rcases ih p' g1 (by rw [g3]; exact hs) with h' | ⟨q, h1, h2, h3, h4, h5⟩
        · exact .inl h'
        · exact .inr ⟨q, h1, h2, h3, by rw [h4, g2], h5⟩

/-- The loop that searches the end of a string. -/
theorem readStringLoop_diverges (fuel : Nat) (p : Parser) (n : Nat) (h : p.Ok)
    (hl : p.buffer.length < p.rest.length)
    (hq : ∀ c ∈ p.rest.take p.buffer.length, c ≠ c!"\"" ∧ c ≠ c!"\\") :
    readStringLoop fuel p n false false = .timeout := by
  induction fuel generalizing p n with
  | zero => rfl
  | succ fuel ih =>
    unfold readStringLoop
    have hav := available_le h
    by_cases ha : n < p.available
    · rw [if_pos ha]
      obtain ⟨c, hc⟩ := buffer_get h ha
      have hr := rest_get h ha
      rw [hc] at hr ⊢
      have hm : c ∈ p.rest.take p.buffer.length := by
        refine List.mem_of_getElem? (i := n) ?_
        rw [List.getElem?_take, if_pos (by omega), ← hr]
      obtain ⟨h1, h2⟩ := hq c hm
      simp only [Bool.false_eq_true, if_false, if_neg h1, if_neg h2]
      exact ih p (n + 1) h hl hq
    · rw [if_neg ha]
      rcases bufferMore_spec h with ⟨p', e, _, _, hw⟩ | ⟨p', e, g1, g2, g3, _, _⟩
      · have := congrArg List.length hw
        rw [window_length h] at this
        omega
      · rw [e]
        simp only
        exact ih p' n g1 (by rw [g2, g3]; exact hl) (by rw [g2, g3]; exact hq)

/-- The same for a number. -/
theorem readNumberLoop_diverges (fuel : Nat) (p : Parser) (n : Nat) (h : p.Ok)
    (hl : p.buffer.length < p.rest.length)
    (hq : ∀ c ∈ p.rest.take p.buffer.length, numberChar c = true) :
    readNumberLoop fuel p n = .timeout := by
  induction fuel generalizing p n with
  | zero => rfl
  | succ fuel ih =>
    unfold readNumberLoop
    have hav := available_le h
    by_cases ha : n < p.available
    · rw [if_pos ha]
      obtain ⟨c, hc⟩ := buffer_get h ha
      have hr := rest_get h ha
      rw [hc] at hr ⊢
      have hm : c ∈ p.rest.take p.buffer.length := by
        refine List.mem_of_getElem? (i := n) ?_
        rw [List.getElem?_take, if_pos (by omega), ← hr]
      have h1 := hq c hm
      unfold numberChar at h1
      have h2 : ¬ ((!isCharDigit c && decide (c ≠ c!".") && decide (c ≠ c!"e")) = true) := by
        intro h2
        simp only [Bool.and_eq_true, Bool.not_eq_true', decide_eq_true_eq, Bool.or_eq_true] at h1 h2
        rcases h1 with (h1 | h1) | h1
        · rw [h1] at h2; simp at h2
        · exact h2.1.2 h1
        · exact h2.2 h1
      simp only
      rw [if_neg h2]
      exact ih p (n + 1) h hl hq
    · rw [if_neg ha]
      rcases bufferMore_spec h with ⟨p', e, _, _, hw⟩ | ⟨p', e, g1, g2, g3, _, _⟩
      · have := congrArg List.length hw
        rw [window_length h] at this
        omega
      · rw [e]
        simp only
        exact ih p' n g1 (by rw [g2, g3]; exact hl) (by rw [g2, g3]; exact hq)

end Parser

/-- A program that is at a certain place of the stream, with a buffer of a certain size: it never ends. -/
def Prog.Diverges {σ : Type} (size : Nat) (prog : Prog σ) (ready : Bool) (s : List UInt8) : Prop :=
  ∀ fuel (p : Parser), p.Ok → p.buffer.length = size → p.rest = s → (ready = true → p.tail < p.head) → prog.run fuel p = .timeout

theorem diverges_skipWhitespace {σ : Type} {size : Nat} {m : σ} {k : Prog σ} {r : Bool} {s s' : List UInt8} {c : UInt8}
    (hs : s.dropWhile isCharSpace = c :: s') (h : k.Diverges size true (c :: s')) :
    (Prog.op .skipWhitespace m fun _ => k).Diverges size r s := by
  intro fuel p hp hb hr _
  simp only [Prog.run, Op.run]
  rcases Parser.skipWhitespace_any fuel p hp (by rw [hr]; exact hs) with e | ⟨p', e, h1, h2, h3, h4⟩
  · rw [e]
  · rw [e]
    exact h fuel p' h1 (by rw [h3]; exact hb) h2 fun _ => h4

theorem Parser.current_ready {p : Parser} (h : p.Ok) (hr : p.tail < p.head) {c : UInt8} {s : List UInt8} (hs : p.rest = c :: s) :
    p.current = some c := by
  have := Parser.rest_get h (n := 0) (by unfold Parser.available; omega)
  rw [hs] at this
  simpa [Parser.current] using this

theorem diverges_nextType {σ : Type} {size : Nat} {m : σ} {k : JType → Prog σ} {r : Bool} {s s' : List UInt8} {c : UInt8}
    (hs : s.dropWhile isCharSpace = c :: s') (hc : symbolTable c ≠ .error) (h : (k (symbolTable c)).Diverges size true (c :: s')) :
    (nextType m k).Diverges size r s := by
  refine diverges_skipWhitespace hs ?_
  intro fuel p hp hb hr ht
  simp only [Prog.run, Op.run, Parser.current_ready hp (ht rfl) hr]
  rw [if_neg hc]
  exact h fuel p hp hb hr ht

theorem diverges_consume {σ : Type} {size : Nat} {m : σ} {k : Prog σ} {t : Punct} {r : Bool} {s s' : List UInt8} {c : UInt8}
    (hs : s.dropWhile isCharSpace = c :: s') (hc : symbolTable c = t.type) (h : k.Diverges size false s') :
    (consume t m k).Diverges size r s := by
  refine diverges_skipWhitespace hs ?_
  intro fuel p hp hb hr ht
  have ht := ht rfl
  have ha : 1 ≤ p.available := by unfold Parser.available; omega
  obtain ⟨a1, a2, _⟩ := Parser.advance hp ha
  simp only [Prog.run, Op.run, Parser.consume, Parser.current_ready hp ht hr]
  rw [if_neg (by simp [hc])]
  exact h fuel _ a1 hb (by rw [a2, hr]; rfl) (by simp)

theorem diverges_readString {σ : Type} {size : Nat} {m : σ} {k : Str → Prog σ} {s : List UInt8}
    (hl : size < s.length) (hq : ∀ c ∈ s.take size, c ≠ c!"\"" ∧ c ≠ c!"\\") :
    (Prog.op .readString m k).Diverges size true (c!"\"" :: s) := by
  intro fuel p hp hb hr ht
  have ht := ht rfl
  have ha : 1 ≤ p.available := by unfold Parser.available; omega
  obtain ⟨a1, a2, _⟩ := Parser.advance hp ha
  simp only [Prog.run, Op.run, Parser.readString, Parser.current_ready hp ht hr]
  rw [if_neg (by simp)]
  have hr' : ({ p with tail := p.tail + 1 } : Parser).rest = s := by rw [a2, hr]; rfl
  have := Parser.readStringLoop_diverges fuel _ 0 a1 (by rw [hr']; simp only [hb]; exact hl) (by rw [hr']; simp only [hb]; exact hq)
  rw [this]

theorem diverges_andThen {τ σ : Type} {size : Nat} {p : Prog τ} {f : τ → σ} {k : τ → Prog σ} {r : Bool} {s : List UInt8}
    (h : p.Diverges size r s) : (p.andThen f k).Diverges size r s := by
  have key : ∀ (p : Prog τ) fuel q, p.run fuel q = .timeout → (p.andThen f k).run fuel q = .timeout := by
    intro p fuel
    induction p with
    | done m => intro q h; simp [Prog.run] at h
    | fail m => intro q h; simp [Prog.run] at h
    | timeout => intro q _; rfl
    | op o m k' ih =>
      intro q h
      simp only [Prog.run, Prog.andThen] at h ⊢
      split at h
      · exact ih _ _ h
      · simp at h
      · simp at h
      · rfl
  exact fun fuel q h1 h2 h3 h4 => key p fuel q (h fuel q h1 h2 h3 h4)

theorem diverges_timeout {σ : Type} {size : Nat} {r : Bool} {s : List UInt8} : (Prog.timeout : Prog σ).Diverges size r s :=
  fun _ _ _ _ _ _ => rfl

end Verif
