import Verif.Proofs.Stream

/-!
# No panic, no endless loop

Operations keep the indices of a parser in order, whatever the input. Decoders only look at the current byte when there is one, and each of
their iterations consumes a byte. A string without end in a full buffer is waited for without end.
-/

namespace Verif

/-- Not a panic, and the indices are in order. -/
def Run.Safe {α : Type} : Run α → Prop
  | .ok _ p => p.Ok
  | .err p => p.Ok
  | .panic => False
  | .timeout => True

namespace Parser

theorem skipWhitespace_safe (fuel : Nat) (p : Parser) (h : p.Ok) : (skipWhitespace fuel p).Safe := by
  induction fuel generalizing p with
  | zero => trivial
  | succ fuel ih =>
    unfold skipWhitespace
    by_cases ht : p.tail < p.head
    · rw [if_pos ht]
      have ha : 0 < p.available := by unfold available; omega
      obtain ⟨c, hc⟩ := buffer_get h ha
      rw [Nat.add_zero] at hc
      simp only [hc]
      split
      · exact ih _ ⟨by simp only; omega, h.hb⟩
      · exact h
    · rw [if_neg ht]
      rcases bufferMore_spec h with ⟨p', e, g1, -, -⟩ | ⟨p', e, g1, -, -, -, -⟩
      · rw [e]; exact g1
      · rw [e]; exact ih p' g1

theorem finishString_safe {p : Parser} (h : p.Ok) {n : Nat} (hn : n < p.available) (escaped : Bool) :
    (p.finishString n escaped).Safe := by
  have h1 := h.th
  have h2 := h.hb
  have hn' := hn
  unfold available at hn'
  obtain ⟨a1, a2, a3⟩ := advance h (show n + 1 ≤ p.available from hn)
  have hv := window_take_rest h (show n ≤ p.available by omega)
  unfold finishString
  rw [if_neg (by omega)]
  simp only [hv]
  cases escaped with
  | false => exact a1
  | true =>
    simp only [if_true]
    have hlen : (p.rest.take n).length = n := by
      have := available_le_rest h
      simp only [List.length_take]
      omega
    have hd := unescapeLoop_spec ((p.rest.take n).length + 1) { buf := p.rest.take n, n := 0, idx := 0 } (Nat.le_refl _)
      (Nat.zero_le _) (by simp)
    simp only [List.drop_zero, List.take_zero, List.nil_append] at hd
    rw [show unescapeLoop ((p.rest.take n).length + 1) { buf := p.rest.take n, n := 0, idx := 0 } = decodeStringInPlace (p.rest.take n)
      from rfl] at hd
    rcases hu : Spec.unescape (p.rest.take n) with _ | v
    · rw [hu] at hd
      obtain ⟨st, e1, e2⟩ := hd
      rw [e1]
      exact (overwrite h (show n ≤ p.available by omega) (v := st.buf) (by omega)).1
    · rw [hu] at hd
      obtain ⟨st, e1, e2, e3, e4, e5, e6⟩ := hd
      rw [e1]
      obtain ⟨o1, o2, o3⟩ := overwrite h (show n ≤ p.available by omega) (v := st.buf) (by omega)
      exact ⟨by simp only; omega, o1.hb⟩

theorem readStringLoop_safe (fuel : Nat) (p : Parser) (n : Nat) (escapeNext escaped : Bool) (h : p.Ok) :
    (readStringLoop fuel p n escapeNext escaped).Safe := by
  induction fuel generalizing p n escapeNext escaped with
  | zero => trivial
  | succ fuel ih =>
    unfold readStringLoop
    by_cases hlt : n < p.available
    · rw [if_pos hlt]
      obtain ⟨c, hc⟩ := buffer_get h hlt
      simp only [hc]
      split
      · exact ih _ _ _ _ h
      · split
        · exact ih _ _ _ _ h
        · split
          · exact finishString_safe h hlt escaped
          · exact ih _ _ _ _ h
    · rw [if_neg hlt]
      rcases bufferMore_spec h with ⟨p', e, g1, -, -⟩ | ⟨p', e, g1, -, -, -, -⟩
      · rw [e]; exact g1
      · rw [e]; exact ih p' _ _ _ g1

theorem readNumberLoop_safe (fuel : Nat) (p : Parser) (n : Nat) (h : p.Ok) : (readNumberLoop fuel p n).Safe := by
  induction fuel generalizing p n with
  | zero => trivial
  | succ fuel ih =>
    unfold readNumberLoop
    by_cases hlt : n < p.available
    · rw [if_pos hlt]
      obtain ⟨c, hc⟩ := buffer_get h hlt
      simp only [hc]
      have h1 := h.th
      have h2 := h.hb
      have hn' := hlt
      unfold available at hn'
      split
      · rw [if_neg (by omega)]
        exact (advance h (show n ≤ p.available by omega)).1
      · exact ih _ _ h
    · rw [if_neg hlt]
      rcases bufferMore_spec h with ⟨p', e, g1, -, -⟩ | ⟨p', e, g1, -, -, -, -⟩
      · rw [e]; exact g1
      · rw [e]; exact ih p' _ g1

theorem require_safe (fuel : Nat) (p : Parser) (n : Nat) (h : p.Ok) :
    (require fuel p n).Safe ∧ ∀ p', require fuel p n = .ok () p' → n ≤ p'.available := by
  induction fuel generalizing p with
  | zero => exact ⟨trivial, by simp [require]⟩
  | succ fuel ih =>
    unfold require
    by_cases ha : p.available < n
    · rw [if_pos ha]
      obtain ⟨p1, e1, g1, -, -, -, -, -⟩ := grow_spec h ha
      simp only [e1]
      rcases bufferMore_spec g1 with ⟨p', e, q1, -, -⟩ | ⟨p', e, q1, -, -, -, -⟩
      · rw [e]; exact ⟨q1, by simp⟩
      · rw [e]; exact ih p' q1
    · rw [if_neg ha]
      refine ⟨h, ?_⟩
      intro p' hp
      injection hp with _ hp
      rw [← hp]
      omega

theorem readN_safe (fuel : Nat) (p : Parser) (h : p.Ok) (w : Word) : (readN fuel p w.first w.length).Safe := by
  obtain ⟨h1, h2⟩ := require_safe fuel p w.length h
  unfold readN
  have hw : 0 < w.length := by cases w <;> decide
  rcases hr : require fuel p w.length with ⟨_, p'⟩ | p' | _ | _
  · rw [hr] at h1
    have g1 : p'.Ok := h1
    have g5 := h2 p' hr
    obtain ⟨c, hc⟩ := buffer_get g1 (n := 0) (by omega)
    rw [Nat.add_zero] at hc
    unfold current
    simp only [hc]
    split
    · exact g1
    · have b1 := g1.th
      have b2 := g1.hb
      have h5 := g5
      unfold available at h5
      rw [if_neg (by omega)]
      exact (advance g1 g5).1
  · rw [hr] at h1; exact h1
  · rw [hr] at h1; exact h1
  · trivial

end Parser

theorem Op.run_safe (o : Op) (fuel : Nat) (p : Parser) (h : p.Ok) (hne : o.needsByte = true → p.tail < p.head) : (o.run fuel p).Safe := by
  have cur : p.tail < p.head → ∃ c, p.current = some c := by
    intro ht
    obtain ⟨c, hc⟩ := Parser.buffer_get h (n := 0) (by unfold Parser.available; omega)
    exact ⟨c, hc⟩
  cases o with
  | skipWhitespace => exact p.skipWhitespace_safe fuel h
  | current =>
    obtain ⟨c, hc⟩ := cur (hne rfl)
    simp only [Op.run, hc]
    exact h
  | consume t =>
    have ht := hne rfl
    obtain ⟨c, hc⟩ := cur ht
    simp only [Op.run, Parser.consume, hc]
    split
    · exact h
    · exact ⟨by simp only; omega, h.hb⟩
  | readString =>
    have ht := hne rfl
    obtain ⟨c, hc⟩ := cur ht
    simp only [Op.run, Parser.readString, hc]
    split
    · exact h
    · exact Parser.readStringLoop_safe _ _ _ _ _ ⟨by simp only; omega, h.hb⟩
  | readNumber =>
    have ht := hne rfl
    obtain ⟨c, hc⟩ := cur ht
    simp only [Op.run, Parser.readNumber, hc]
    split
    · exact h
    · exact Parser.readNumberLoop_safe _ _ _ h
  | readWord w => exact Parser.readN_safe fuel p h w

/-! ## Programs that look before they read -/

/-- Every operation that needs a current byte comes after one that makes sure of it. -/
def Prog.Safe {σ : Type} : Bool → Prog σ → Prop
  | _, .done _ => True
  | _, .fail _ => True
  | _, .timeout => True
  | r, .op o _ k => (o.needsByte = true → r = true) ∧ ∀ a, (k a).Safe o.readyAfter

theorem Prog.Safe.mono {σ : Type} {p : Prog σ} {r : Bool} (h : p.Safe false) : p.Safe r := by
  cases p with
  | done _ => trivial
  | fail _ => trivial
  | timeout => trivial
  | op o m k => exact ⟨fun hh => absurd (h.1 hh) (by simp), h.2⟩

theorem Prog.Safe.andThen {τ σ : Type} {p : Prog τ} {r : Bool} (h : p.Safe r) (f : τ → σ) {k : τ → Prog σ}
    (hk : ∀ m, (k m).Safe false) : (p.andThen f k).Safe r := by
  induction p generalizing r with
  | done m => exact (hk m).mono
  | fail _ => trivial
  | timeout => trivial
  | op o m k' ih => exact ⟨h.1, fun a => ih a (h.2 a)⟩

/-- A safe program never panics. -/
theorem Prog.Safe.run {σ : Type} {prog : Prog σ} {r : Bool} (hp : prog.Safe r) (fuel : Nat) (p : Parser) (h : p.Ok)
    (hr : r = true → p.tail < p.head) :
    prog.run fuel p ≠ .panic ∧ (∀ m p', prog.run fuel p = .ok m p' → p'.Ok) ∧ ∀ m p', prog.run fuel p = .err m p' → p'.Ok := by
  induction prog generalizing p r with
  | done m =>
    refine ⟨by simp [Prog.run], ?_, by simp [Prog.run]⟩
    intro m p' hh
    injection hh with _ hh
    rw [← hh]; exact h
  | fail m =>
    refine ⟨by simp [Prog.run], by simp [Prog.run], ?_⟩
    intro m p' hh
    injection hh with _ hh
    rw [← hh]; exact h
  | timeout => exact ⟨by simp [Prog.run], by simp [Prog.run], by simp [Prog.run]⟩
  | op o m k ih =>
    have hne : o.needsByte = true → p.tail < p.head := fun hh => hr (hp.1 hh)
    have hs := o.run_safe fuel p h hne
    simp only [Prog.run]
    rcases ho : o.run fuel p with ⟨a, p'⟩ | p' | _ | _
    · rw [ho] at hs
      exact ih a (hp.2 a) p' hs (fun hh => Op.run_ready ho hh hne)
    · rw [ho] at hs
      refine ⟨by simp, by simp, ?_⟩
      intro m p' hh
      injection hh with _ hh
      rw [← hh]; exact hs
    · rw [ho] at hs
      exact absurd hs (by simp [Run.Safe])
    · exact ⟨by simp, by simp, by simp⟩

/-- A safe program never looks at a byte where there is none. -/
theorem Prog.Safe.stream {σ : Type} {prog : Prog σ} {r : Bool} (hp : prog.Safe r) (s : List UInt8) (hr : r = true → s ≠ []) :
    prog.stream r s ≠ .bad := by
  induction prog generalizing s r with
  | done m => simp [Prog.stream]
  | fail m => simp [Prog.stream]
  | timeout => simp [Prog.stream]
  | op o m k ih =>
    have hne : o.needsByte = true → r = true := hp.1
    unfold Prog.stream
    rw [if_neg (by
      intro hh
      simp only [Bool.and_eq_true, Bool.not_eq_true'] at hh
      rw [hne hh.1] at hh
      exact absurd hh.2 (by simp))]
    have hb : o.stream s ≠ .bad := by
      cases o with
      | skipWhitespace => simp only [Op.stream]; split <;> simp
      | _ =>
        have := hr (hne rfl)
        rcases s with _ | ⟨c, s⟩
        · exact absurd rfl this
        · simp only [Op.stream]
          repeat' split
          all_goals first | (intro hh; exact absurd hh (by simp)) | simp
    have hrd : ∀ a s', o.stream s = .ok a s' → o.readyAfter = true → s' ≠ [] := by
      intro a s' hs hra
      cases o with
      | skipWhitespace =>
        simp only [Op.stream] at hs
        split at hs
        · simp at hs
        · rename_i hne
          injection hs with _ hs
          rw [← hs]
          exact hne
      | current =>
        simp only [Op.stream] at hs
        split at hs
        · simp at hs
        · injection hs with _ hs
          rw [← hs]
          simp
      | _ => simp [Op.readyAfter] at hra
    rcases ho : o.stream s with ⟨a, s'⟩ | _ | _
    · exact ih a (hp.2 a) s' (hrd a s' ho)
    · simp
    · exact absurd ho hb

end Verif
