import Verif.Model.Cost
import Verif.Proofs.Fuel
import Verif.Proofs.Truncate

/-!
# Bounds for the steps of parsing
-/

namespace Verif

namespace Parser

theorem bufferMore_tail {p p' : Parser} (h : p.bufferMore = .ok () p') : p'.tail = 0 ∧ p.eof = false := by
  unfold bufferMore at h
  by_cases he : p.eof = true
  · simp [he] at h
  · rw [if_neg he] at h
    refine ⟨?_, by simpa using he⟩
    simp only at h
    by_cases ht : p.tail > 0
    · rw [if_pos ht] at h
      split at h
      · simp at h
      · rename_i q hq
        split at hq
        · injection hq with hq
          split at h
          · simp at h
          · split at h
            · split at h
              · simp at h
              · injection h with _ h; rw [← h, ← hq]
            · simp at h
            · injection h with _ h; rw [← h, ← hq]
        · simp at hq
    · rw [if_neg ht] at h
      simp only at h
      split at h
      · simp at h
      · split at h
        · split at h
          · simp at h
          · injection h with _ h; rw [← h]; show p.tail = 0; omega
        · simp at h
        · injection h with _ h; rw [← h]; show p.tail = 0; omega

theorem bufferMoreSteps_le (p : Parser) : p.bufferMoreSteps ≤ 1 + (if p.tail = 0 then 0 else p.available) := by
  unfold bufferMoreSteps
  split <;> split <;> omega

theorem skipWhitespace_cost (fuel : Nat) (p : Parser) (h : p.Ok) (h0 : 0 < p.buffer.length) :
    match skipWhitespace fuel p with
    | .ok _ p' => skipWhitespaceSteps fuel p + p'.work ≤ p.work + 1
    | _ => skipWhitespaceSteps fuel p ≤ p.work + 1 := by
  induction fuel generalizing p with
  | zero => simp [skipWhitespace, skipWhitespaceSteps]
  | succ fuel ih =>
    unfold skipWhitespace skipWhitespaceSteps
    by_cases ht : p.tail < p.head
    · rw [if_pos ht, if_pos ht]
      have ha : 0 < p.available := by unfold available; omega
      obtain ⟨c, hc⟩ := buffer_get h ha
      rw [Nat.add_zero] at hc
      simp only [hc]
      obtain ⟨a1, a2, a3⟩ := advance h (show 1 ≤ p.available from ha)
      by_cases hsp : isCharSpace c = true
      · rw [if_pos hsp, if_pos hsp]
        have := ih _ a1 h0
        generalize skipWhitespace fuel { p with tail := p.tail + 1 } = r at this ⊢
        cases r <;> simp only at this ⊢ <;> omega
      · rw [if_neg hsp, if_neg hsp]
        simp only
        omega
    · rw [if_neg ht, if_neg ht]
      have ha : p.available = 0 := by unfold available; omega
      have hb := bufferMoreSteps_le p
      rw [ha] at hb
      have hb : p.bufferMoreSteps ≤ 1 := by split at hb <;> omega
      rcases bufferMore_spec h with ⟨p', e, g1, g2, g3⟩ | ⟨p', e, g1, g2, g3, g4, g5⟩
      · rw [e]
        simp only
        omega
      · rw [e]
        simp only
        have hw := g5 (by omega)
        have := ih p' g1 (by omega)
        generalize skipWhitespace fuel p' = r at this ⊢
        cases r <;> simp only at this ⊢ <;> omega

theorem unescapeSteps_le (fuel : Nat) (st : Unescape) : unescapeSteps fuel st ≤ fuel := by
  induction fuel generalizing st with
  | zero => simp [unescapeSteps]
  | succ fuel ih =>
    unfold unescapeSteps
    split
    · have := ih (by assumption)
      omega
    · omega

theorem finishStringSteps_le (p : Parser) (n : Nat) (escaped : Bool) : p.finishStringSteps n escaped ≤ 2 * n + 1 := by
  unfold finishStringSteps
  split
  · have := unescapeSteps_le (n + 1) { buf := (p.buffer.drop p.tail).take n, n := 0, idx := 0 }
    omega
  · omega

/-- The cost of a loop over a string or a number, after `n` of its bytes. -/
def Costs {α : Type} (n steps : Nat) (p : Parser) : Run α → Prop
  | .ok _ p' => n + p'.rest.length ≤ p.rest.length ∧
      steps + p'.work + n ≤ p.work + 2 * (p.rest.length - p'.rest.length) + (if p.tail = 0 then 0 else p.rest.length - p'.rest.length) + 1
  | .err _ => steps + n ≤ p.work + 2 * p.rest.length + (if p.tail = 0 then 0 else p.rest.length) + 2
  | _ => True

theorem Costs.more {α : Type} {n steps : Nat} {p p' : Parser} {r : Run α} (h : Costs n steps p' r) (ht : p'.tail = 0) (hr : p'.rest = p.rest)
    (hw : p'.work < p.work) (hn : n ≤ p.rest.length) (ha : p.available = n) : Costs n (p.bufferMoreSteps + steps) p r := by
  have hb := bufferMoreSteps_le p
  cases r with
  | ok a q =>
    obtain ⟨h1, h2⟩ := h
    rw [hr] at h1 h2
    rw [if_pos ht] at h2
    refine ⟨h1, ?_⟩
    split at hb <;> split <;> omega
  | err q =>
    have h : _ ≤ _ := h
    rw [hr, if_pos ht] at h
    show _ ≤ _
    split at hb <;> split <;> omega
  | panic => trivial
  | timeout => trivial

theorem Costs.next {α : Type} {n steps : Nat} {p : Parser} {r : Run α} (h : Costs (n + 1) steps p r) : Costs n (1 + steps) p r := by
  cases r with
  | ok a q =>
    obtain ⟨h1, h2⟩ := h
    refine ⟨by omega, ?_⟩
    split at h2 <;> split <;> omega
  | err q =>
    have h : _ ≤ _ := h
    show _ ≤ _
    split at h <;> split <;> omega
  | panic => trivial
  | timeout => trivial

theorem finishString_cost {p : Parser} (h : p.Ok) {n : Nat} (hn : n < p.available) (escaped : Bool) :
    Costs n (1 + p.finishStringSteps n escaped) p (p.finishString n escaped) := by
  have hs := finishStringSteps_le p n escaped
  have hal := available_le_rest h
  obtain ⟨a1, a2, a3⟩ := advance h (show n + 1 ≤ p.available from hn)
  have hw : p.available ≤ p.work := by unfold work; omega
  have key : ∀ p' : Parser, p'.rest.length = (p.rest.drop (n + 1)).length → p'.work + (n + 1) = p.work → n + p'.rest.length ≤ p.rest.length ∧
      1 + p.finishStringSteps n escaped + p'.work + n ≤
        p.work + 2 * (p.rest.length - p'.rest.length) + (if p.tail = 0 then 0 else p.rest.length - p'.rest.length) + 1 := by
    intro p' e1 e2
    rw [List.length_drop] at e1
    refine ⟨by omega, ?_⟩
    split <;> omega
  have key2 : 1 + p.finishStringSteps n escaped + n ≤ p.work + 2 * p.rest.length + (if p.tail = 0 then 0 else p.rest.length) + 2 := by
    split <;> omega
  have h1 := h.th
  have h2 := h.hb
  have hn' := hn
  unfold available at hn'
  have hv := window_take_rest h (show n ≤ p.available by omega)
  unfold finishString
  rw [if_neg (by omega)]
  simp only [hv]
  cases escaped with
  | false =>
    simp only [Bool.false_eq_true, if_false]
    refine key _ (by rw [Nat.add_assoc, a2]) ?_
    have := a3
    simp only [Nat.add_assoc] at this ⊢
    omega
  | true =>
    simp only [if_true]
    have hlen : (p.rest.take n).length = n := by
      simp only [List.length_take]
      omega
    have hd := unescapeLoop_spec ((p.rest.take n).length + 1) { buf := p.rest.take n, n := 0, idx := 0 } (Nat.le_refl _)
      (Nat.zero_le _) (by simp)
    simp only [List.drop_zero, List.take_zero, List.nil_append] at hd
    rw [show unescapeLoop ((p.rest.take n).length + 1) { buf := p.rest.take n, n := 0, idx := 0 } = decodeStringInPlace (p.rest.take n)
      from rfl] at hd
    rcases hu : Spec.unescape (p.rest.take n) with _ | v
    · rw [hu] at hd
      obtain ⟨st, e1, e2⟩ := hd
      rw [e1]
      exact key2
    · rw [hu] at hd
      obtain ⟨st, e1, e2, e3, e4, e5, e6⟩ := hd
      rw [e1]
      obtain ⟨o1, o2, o3⟩ := overwrite h (show n ≤ p.available by omega) (v := st.buf) (by omega)
      simp only [e6]
      refine key _ ?_ ?_
      · rw [← a2]
        unfold rest window
        simp only [Nat.add_assoc]
        rw [o3 (n + 1) (by omega)]
      · have := a3
        simp only [work, available] at this ⊢
        omega

theorem readStringLoop_cost {size : Nat} (fuel : Nat) (p : Parser) (n : Nat) (escapeNext escaped : Bool) (h : p.Ok)
    (hs : size ≤ p.buffer.length) (hn : n ≤ p.available) (hfit : n + stringEnd escapeNext (p.rest.drop n) < size) :
    Costs n (readStringSteps fuel p n escapeNext escaped) p (readStringLoop fuel p n escapeNext escaped) := by
  induction fuel generalizing p n escapeNext escaped with
  | zero => trivial
  | succ fuel ih =>
    unfold readStringLoop readStringSteps
    by_cases hlt : n < p.available
    · rw [if_pos hlt, if_pos hlt]
      obtain ⟨c, hc⟩ := buffer_get h hlt
      have hr := rest_get h hlt
      rw [hc] at hr
      have hd := drop_cons_of_get hr.symm
      simp only [hc]
      rw [hd] at hfit
      have go : ∀ esc' has', n + 1 + stringEnd esc' (p.rest.drop (n + 1)) < size →
          Costs n (1 + readStringSteps fuel p (n + 1) esc' has') p (readStringLoop fuel p (n + 1) esc' has') :=
        fun esc' has' hf' => (ih p (n + 1) esc' has' h hs hlt hf').next
      cases escapeNext with
      | true =>
        rw [if_pos rfl, if_pos rfl]
        exact go false escaped (by simp only [stringEnd] at hfit; omega)
      | false =>
        simp only [Bool.false_eq_true, if_false]
        by_cases hb : c = c!"\\"
        · rw [if_pos hb, if_pos hb]
          exact go true true (by simp only [stringEnd, if_pos hb] at hfit; omega)
        · rw [if_neg hb, if_neg hb]
          by_cases hq : c = c!"\""
          · rw [if_pos hq, if_pos hq]
            exact finishString_cost h hlt escaped
          · rw [if_neg hq, if_neg hq]
            exact go false escaped (by simp only [stringEnd, if_neg hb, if_neg hq] at hfit; omega)
    · rw [if_neg hlt, if_neg hlt]
      have ha : p.available = n := by omega
      have hal := available_le_rest h
      rcases bufferMore_spec h with ⟨p', e, g1, g2, g3⟩ | ⟨p', e, g1, g2, g3, g4, g5⟩
      · rw [e]
        have hb := bufferMoreSteps_le p
        have hw : p.available ≤ p.work := by unfold work; omega
        show p.bufferMoreSteps + 0 + n ≤ _
        split at hb <;> split <;> omega
      · rw [e]
        exact (ih p' n escapeNext escaped g1 (by omega) (by omega) (by rw [g3]; exact hfit)).more (bufferMore_tail e).1 g3 (g5 (by omega)) (by omega) ha

theorem readNumberLoop_cost {size : Nat} (fuel : Nat) (p : Parser) (n : Nat) (h : p.Ok)
    (hs : size ≤ p.buffer.length) (hn : n ≤ p.available) (hfit : n + ((p.rest.drop n).takeWhile numberChar).length < size) :
    Costs n (readNumberSteps fuel p n) p (readNumberLoop fuel p n) := by
  induction fuel generalizing p n with
  | zero => trivial
  | succ fuel ih =>
    unfold readNumberLoop readNumberSteps
    have hal := available_le_rest h
    by_cases hlt : n < p.available
    · rw [if_pos hlt, if_pos hlt]
      obtain ⟨c, hc⟩ := buffer_get h hlt
      have hr := rest_get h hlt
      rw [hc] at hr
      have hd := drop_cons_of_get hr.symm
      simp only [hc]
      by_cases hnum : numberChar c = true
      · have hcond : ¬ ((!isCharDigit c && c ≠ c!"." && c ≠ c!"e") = true) := by
          simp only [numberChar, Bool.or_eq_true, decide_eq_true_eq] at hnum
          simp only [Bool.and_eq_true, Bool.not_eq_true', decide_eq_true_eq]
          rintro ⟨⟨n1, n2⟩, n3⟩
          rcases hnum with (h | h) | h
          · rw [h] at n1; simp at n1
          · exact n2 h
          · exact n3 h
        rw [if_neg hcond, if_neg hcond]
        have hf2 : n + 1 + ((p.rest.drop (n + 1)).takeWhile numberChar).length < size := by
          rw [hd, List.takeWhile_cons, if_pos hnum, List.length_cons] at hfit
          omega
        exact (ih p (n + 1) h hs hlt hf2).next
      · have hcond : ((!isCharDigit c && c ≠ c!"." && c ≠ c!"e") = true) := by simpa [numberChar] using hnum
        rw [if_pos hcond, if_pos hcond]
        have h1 := h.th
        have h2 := h.hb
        have hn' := hlt
        unfold available at hn'
        obtain ⟨a1, a2, a3⟩ := advance h hn
        rw [if_neg (by omega)]
        have hl : ({ p with tail := p.tail + n } : Parser).rest.length = p.rest.length - n := by rw [a2, List.length_drop]
        refine ⟨by omega, ?_⟩
        rw [hl]
        split <;> omega
    · rw [if_neg hlt, if_neg hlt]
      have ha : p.available = n := by omega
      rcases bufferMore_spec h with ⟨p', e, g1, g2, g3⟩ | ⟨p', e, g1, g2, g3, g4, g5⟩
      · rw [e]
        have hb := bufferMoreSteps_le p
        have hw : p.available ≤ p.work := by unfold work; omega
        show p.bufferMoreSteps + 0 + n ≤ _
        split at hb <;> split <;> omega
      · rw [e]
        exact (ih p' n g1 (by omega) (by omega) (by rw [g3]; exact hfit)).more (bufferMore_tail e).1 g3 (g5 (by omega)) (by omega) ha

theorem require_cost (fuel : Nat) (p : Parser) {n : Nat} (h : p.Ok) :
    match require fuel p n with
    | .ok _ p' => requireSteps fuel p n + p'.work ≤ p.work + (if p.tail = 0 then 0 else n) + (if n ≤ p.buffer.length then 0 else n) + 1
    | _ => requireSteps fuel p n ≤ p.work + (if p.tail = 0 then 0 else n) + (if n ≤ p.buffer.length then 0 else n) + 1 := by
  induction fuel generalizing p with
  | zero => simp [require, requireSteps]
  | succ fuel ih =>
    unfold require requireSteps
    by_cases ha : p.available < n
    · rw [if_pos ha, if_pos ha]
      obtain ⟨p1, e1, g1, g2, g3, g4, g5, g6⟩ := grow_spec h ha
      have hgs : p.growSteps n ≤ if n ≤ p.buffer.length then 0 else n := by
        have := available_le h
        unfold growSteps
        split <;> split <;> omega
      have hg : n ≤ p1.buffer.length ∧ p1.tail = p.tail := by
        have := available_le h
        unfold grow at e1
        simp only at e1
        split at e1
        · rw [if_neg (by omega)] at e1
          injection e1 with e1
          rw [← e1]
          refine ⟨?_, rfl⟩
          simp only [List.length_append, List.length_replicate]
          omega
        · injection e1 with e1
          rw [← e1]
          exact ⟨by omega, rfl⟩
      obtain ⟨hg1, hg2⟩ := hg
      have hb := bufferMoreSteps_le p1
      rw [hg2] at hb
      rw [e1]
      simp only
      rcases bufferMore_spec g1 with ⟨p', e, q1, q2, q3⟩ | ⟨p', e, q1, q2, q3, q4, q5⟩
      · rw [e]
        simp only
        split at hb <;> split <;> omega
      · rw [e]
        have hw := q5 g6
        have := ih p' q1
        rw [if_pos (bufferMore_tail e).1, if_pos (show n ≤ p'.buffer.length by omega)] at this
        simp only
        generalize require fuel p' n = r at this ⊢
        cases r <;> simp only at this ⊢ <;> split at hb <;> split <;> omega
    · rw [if_neg ha, if_neg ha]
      simp only
      omega

end Parser

/-- The cost of an operation: what it adds to the decrease of `work + 5 * rest`. -/
theorem Op.cost {size : Nat} (h0 : 0 < size) (o : Op) (fuel : Nat) (p : Parser) (h : p.Ok) (hs : size ≤ p.buffer.length)
    (hf : p.work < fuel) (hfit : o.Fits size p.rest) (hne : o.needsByte = true → p.tail < p.head) :
    match o.run fuel p with
    | .ok _ p' => o.steps fuel p + p'.work + 5 * p'.rest.length ≤ p.work + 5 * p.rest.length + 2
    | .err _ => o.steps fuel p ≤ p.work + 5 * p.rest.length + 17
    | _ => True := by
  have hag := Op.run_agrees h0 o fuel p h hs hf hfit hne
  cases o with
  | skipWhitespace =>
    have hc := Parser.skipWhitespace_cost fuel p h (by omega)
    simp only [Op.run, Op.steps] at *
    rcases hst : Op.stream .skipWhitespace p.rest with ⟨a, s⟩ | _ | _
    · rw [hst] at hag
      obtain ⟨p', e1, e2, e3, e4, e5⟩ := hag
      have hl := Op.stream_eats _ hst
      rw [e1] at hc ⊢
      simp only [e3] at hc ⊢
      omega
    · rw [hst] at hag
      obtain ⟨p', e1, e2⟩ := hag
      rw [e1] at hc ⊢
      simp only at hc ⊢
      omega
    · generalize Parser.skipWhitespace fuel p = r at hc ⊢
      simp only [Op.stream] at hst
      split at hst <;> simp at hst
  | current =>
    simp only [Op.run, Op.steps]
    cases p.current <;> simp only <;> omega
  | consume t =>
    have ha : 0 < p.available := by have := hne rfl; unfold Parser.available; omega
    obtain ⟨a1, a2, a3⟩ := Parser.advance h (show 1 ≤ p.available from ha)
    have hl : ({ p with tail := p.tail + 1 } : Parser).rest.length ≤ p.rest.length := by rw [a2, List.length_drop]; omega
    simp only [Op.run, Op.steps]
    unfold Parser.consume
    cases p.current with
    | none => trivial
    | some c =>
      simp only
      by_cases hq : symbolTable c ≠ t.type
      · rw [if_pos hq]
        simp only
        omega
      · rw [if_neg hq]
        simp only
        omega
  | readString =>
    have ha : 0 < p.available := by have := hne rfl; unfold Parser.available; omega
    obtain ⟨c, hc⟩ := Parser.buffer_get h ha
    have hr := Parser.rest_get h ha
    rw [hc] at hr
    rw [Nat.add_zero] at hc
    have hd := Parser.drop_cons_of_get hr.symm
    rw [List.drop_zero] at hd
    obtain ⟨a1, a2, a3⟩ := Parser.advance h (show 1 ≤ p.available from ha)
    have hal := Parser.available_le_rest h
    have hl : ({ p with tail := p.tail + 1 } : Parser).rest.length + 1 = p.rest.length := by rw [a2, List.length_drop]; omega
    simp only [Op.run, Op.steps]
    unfold Parser.readString Parser.current
    simp only [hc]
    by_cases hq : c = c!"\""
    · rw [if_neg (by simpa using hq), if_pos (by rw [hq])]
      have := Parser.readStringLoop_cost (size := size) fuel { p with tail := p.tail + 1 } 0 false false a1 hs (Nat.zero_le _)
        (by rw [a2, List.drop_zero, Nat.zero_add]; exact hfit _ (by rw [← hq]; exact hd))
      generalize Parser.readStringLoop fuel { p with tail := p.tail + 1 } 0 false false = r at this ⊢
      cases r with
      | ok a p' =>
        obtain ⟨g1, g2⟩ := this
        simp only at g2 ⊢
        split at g2 <;> omega
      | err p' =>
        have this : _ ≤ _ := this
        simp only at this ⊢
        split at this <;> omega
      | panic => trivial
      | timeout => trivial
    · rw [if_pos (by simpa using hq), if_neg (by simpa using hq)]
      simp only
      omega
  | readNumber =>
    have ha : 0 < p.available := by have := hne rfl; unfold Parser.available; omega
    obtain ⟨c, hc⟩ := Parser.buffer_get h ha
    have hr := Parser.rest_get h ha
    rw [hc] at hr
    rw [Nat.add_zero] at hc
    have hd := Parser.drop_cons_of_get hr.symm
    rw [List.drop_zero] at hd
    simp only [Op.run, Op.steps]
    unfold Parser.readNumber Parser.current
    simp only [hc, Option.any_some]
    by_cases hq : isCharDigit c = true
    · rw [if_neg (by simpa using hq), if_pos hq]
      have hf2 := hfit c (p.rest.drop 1) hd hq
      have := Parser.readNumberLoop_cost (size := size) fuel p 1 h hs ha (by omega)
      generalize Parser.readNumberLoop fuel p 1 = r at this ⊢
      cases r with
      | ok a p' =>
        obtain ⟨g1, g2⟩ := this
        simp only at g2 ⊢
        split at g2 <;> omega
      | err p' =>
        have this : _ ≤ _ := this
        simp only at this ⊢
        split at this <;> omega
      | panic => trivial
      | timeout => trivial
    · rw [if_pos (by simpa using hq), if_neg hq]
      simp only
      omega
  | readWord w =>
    have hc := Parser.require_cost fuel p (n := w.length) h
    have hag2 := Parser.require_agrees (size := size) fuel p w.length h hs hf
    have hw : 4 ≤ w.length ∧ w.length ≤ 5 := by cases w <;> decide
    simp only [Op.run, Op.steps]
    unfold Parser.readN
    by_cases hl : w.length ≤ p.rest.length
    · obtain ⟨p', e, g1, g2, g3, g4, g5⟩ := hag2.1 hl
      rw [e] at hc ⊢
      simp only at hc ⊢
      cases p'.current with
      | none => trivial
      | some c =>
        simp only
        obtain ⟨a1, a2, a3⟩ := Parser.advance g1 g5
        have h5 := g5
        have h6 := g1.hb
        have h7 := g1.th
        unfold Parser.available at h5
        by_cases hq : c = w.first
        · rw [if_neg (show ¬ c ≠ w.first by simpa using hq), if_neg (by omega)]
          have hlen : ({ p' with tail := p'.tail + w.length } : Parser).rest.length = p.rest.length - w.length := by rw [a2, List.length_drop, g2]
          simp only [hlen]
          split at hc <;> split at hc <;> omega
        · rw [if_pos (show c ≠ w.first from hq)]
          simp only
          split at hc <;> split at hc <;> omega
    · obtain ⟨p', e, g⟩ := hag2.2 (by omega)
      rw [e] at hc ⊢
      simp only at hc ⊢
      split at hc <;> split at hc <;> omega

/-! ## Decoders -/

/-- Not more than `g` operations that consume nothing before the next one that consumes something; then five each. It ends after one that consumes something. -/
def Prog.Paced {σ : Type} : Nat → Prog σ → Prop
  | g, .done _ => g = 5
  | _, .fail _ => True
  | _, .timeout => True
  | g, .op o _ k => if o.eats = 0 then ∃ g', g = g' + 1 ∧ ∀ a, (k a).Paced g' else ∀ a, (k a).Paced 5

/-- The cost of a decoder. -/
theorem Prog.cost {σ : Type} {size : Nat} (h0 : 0 < size) (prog : Prog σ) {g : Nat} (hg : g ≤ 5) (fuel : Nat) (p : Parser) (h : p.Ok)
    (hs : size ≤ p.buffer.length) (hf : p.work < fuel) (hfit : Spec.TokensFit size p.rest) {r : Bool} (hsafe : prog.Safe r)
    (hne : r = true → p.tail < p.head) (hp : prog.Paced g) :
    prog.steps fuel p ≤ p.work + 5 * p.rest.length + 2 * (g + 6 * p.rest.length) + 17 := by
  induction prog generalizing g p r with
  | done m => simp [Prog.steps]
  | fail m => simp [Prog.steps]
  | timeout => simp [Prog.steps]
  | op o m k ih =>
    obtain ⟨s1, s2⟩ := hsafe
    have hne' : o.needsByte = true → p.tail < p.head := fun hh => hne (s1 hh)
    have hofit := o.fits_tokens h0 hfit
    have hag := Op.run_agrees h0 o fuel p h hs hf hofit hne'
    have hc := Op.cost h0 o fuel p h hs hf hofit hne'
    simp only [Prog.steps]
    simp only [Prog.Paced] at hp
    rcases hst : o.stream p.rest with ⟨a, s⟩ | _ | _
    · rw [hst] at hag
      obtain ⟨p', e1, e2, e3, e4, e5⟩ := hag
      have hl := Op.stream_eats _ hst
      have hready := fun hr => Op.run_ready e1 hr hne'
      have hfit' := Op.stream_fits o hfit hst
      rw [← e3] at hl hfit'
      rw [e1] at hc ⊢
      simp only at hc ⊢
      by_cases he : o.eats = 0
      · rw [if_pos he] at hp
        obtain ⟨g', rfl, hp⟩ := hp
        have := ih a (by omega) p' e2 e4 (by omega) hfit' (s2 a) hready (hp a)
        omega
      · rw [if_neg he] at hp
        have := ih a (Nat.le_refl 5) p' e2 e4 (by omega) hfit' (s2 a) hready (hp a)
        omega
    · rw [hst] at hag
      obtain ⟨p', e1, e2⟩ := hag
      rw [e1] at hc ⊢
      simp only at hc ⊢
      omega
    · exfalso
      have hlen : o.needsByte = true → 0 < p.rest.length := fun hh => by
        have := hne' hh
        have := Parser.available_le_rest h
        unfold Parser.available at this
        omega
      cases o with
      | skipWhitespace =>
        simp only [Op.stream] at hst
        split at hst <;> simp at hst
      | _ =>
        have := hlen rfl
        rcases hr : p.rest with _ | ⟨c, t⟩
        · rw [hr] at this; simp at this
        · rw [hr] at hst
          simp only [Op.stream] at hst
          repeat' split at hst
          all_goals simp at hst

section
variable {σ τ : Type}

theorem Prog.Paced.mono {g g' : Nat} {p : Prog σ} (h : p.Paced g) (hg : g ≤ g') (hg' : g' ≤ 5) : p.Paced g' := by
  induction p generalizing g g' with
  | done m => simp only [Prog.Paced] at h ⊢; omega
  | fail m => trivial
  | timeout => trivial
  | op o m k ih =>
    simp only [Prog.Paced] at h ⊢
    by_cases he : o.eats = 0
    · rw [if_pos he] at h ⊢
      obtain ⟨x, rfl, h⟩ := h
      exact ⟨g' - 1, by omega, fun a => ih a (h a) (by omega) (by omega)⟩
    · rw [if_neg he] at h ⊢
      exact h

theorem Prog.Paced.andThen {g : Nat} {p : Prog τ} (h : p.Paced g) (f : τ → σ) {k : τ → Prog σ} (hk : ∀ m, (k m).Paced 5) :
    (p.andThen f k).Paced g := by
  induction p generalizing g with
  | done m => simp only [Prog.Paced] at h; rw [h]; exact hk m
  | fail m => trivial
  | timeout => trivial
  | op o m k ih =>
    simp only [Prog.Paced, Prog.andThen] at h ⊢
    by_cases he : o.eats = 0
    · rw [if_pos he] at h ⊢
      obtain ⟨x, rfl, h⟩ := h
      exact ⟨x, rfl, fun a => ih a (h a)⟩
    · rw [if_neg he] at h ⊢
      exact fun a => ih a (h a)

theorem nextType_paced {g : Nat} {m : σ} {k : JType → Prog σ} (h : ∀ t, (k t).Paced g) : (nextType m k).Paced (g + 2) := by
  refine ⟨g + 1, rfl, fun _ => ⟨g, rfl, fun c => ?_⟩⟩
  by_cases hc : symbolTable c = .error
  · simp only [if_pos hc]; trivial
  · simp only [if_neg hc]; exact h _

theorem consume_paced (t : Punct) {g : Nat} {m : σ} {k : Prog σ} (h : k.Paced 5) : (consume t m k).Paced (g + 1) :=
  ⟨g, rfl, fun _ _ => h⟩

theorem readString_paced {g : Nat} {m : σ} {k : Str → Prog σ} (h : ∀ t, (k t).Paced 5) : (readString m k).Paced (g + 1) :=
  ⟨g, rfl, fun _ => h⟩

theorem readNumber_paced {g : Nat} {m : σ} {k : Str → Prog σ} (h : ∀ t, (k t).Paced 5) : (readNumber m k).Paced (g + 1) :=
  ⟨g, rfl, fun _ => h⟩

theorem readBoolean_paced {g : Nat} {m : σ} {k : Str → Prog σ} (h : ∀ t, (k t).Paced 5) : (readBoolean m k).Paced (g + 1) := by
  refine ⟨g, rfl, fun c => ?_⟩
  simp only
  split
  · exact h
  · exact h

theorem readLiteral_paced {g : Nat} {m : σ} {k : Str → Prog σ} (h : ∀ t, (k t).Paced 5) : (readLiteral m k).Paced (g + 3) := by
  refine nextType_paced (g := g + 1) fun t => ?_
  split
  · exact h
  · exact h
  · exact readBoolean_paced h
  · exact h
  · trivial

end

theorem skip_paced (fuel : Nat) :
    (∀ t g, (skip fuel t).Paced (g + 1)) ∧ (skipArrayLoop fuel).Paced 5 ∧ (skipObjectLoop fuel).Paced 5 := by
  induction fuel with
  | zero =>
    refine ⟨fun t g => ?_, ?_, ?_⟩
    · unfold skip; trivial
    · unfold skipArrayLoop; trivial
    · unfold skipObjectLoop; trivial
  | succ fuel ih =>
    obtain ⟨ih1, ih2, ih3⟩ := ih
    refine ⟨fun t g => ?_, ?_, ?_⟩
    · unfold skip
      split
      · exact fun _ => rfl
      · exact fun _ => rfl
      · exact readBoolean_paced fun _ => rfl
      · exact fun _ => rfl
      · exact fun _ => ih3
      · exact fun _ => ih2
      · trivial
    · unfold skipArrayLoop
      refine nextType_paced (g := 3) fun t => ?_
      split
      · exact fun _ => rfl
      · exact (ih1 t 2).andThen _ fun _ => ih2
    · unfold skipObjectLoop
      refine nextType_paced (g := 3) fun t => ?_
      split
      · exact fun _ => rfl
      · exact fun _ => (nextType_paced (g := 3) fun t => ih1 t 2).andThen _ fun _ => ih3

theorem skipValue_paced (fuel g : Nat) : (skipValue fuel).Paced (g + 3) := nextType_paced (g := g + 1) fun t => (skip_paced fuel).1 t g

/-- A decoder of a value with not more than `g` operations before the first that consumes something. -/
def ValueDecoder.Paced {σ : Type} (g : Nat) (d : ValueDecoder σ) : Prop := ∀ m, (d m).Paced g

theorem ValueDecoder.Paced.field {τ σ : Type} {g : Nat} {get : σ → τ} {set : τ → σ → σ} {d : ValueDecoder τ} (h : d.Paced g) :
    (d.field get set).Paced g :=
  fun m => (h (get m)).andThen _ fun _ => rfl

theorem uint64ValueDecoder_paced (g : Nat) : uint64ValueDecoder.Paced (g + 1) := by
  intro m
  refine readNumber_paced fun t => ?_
  split
  · trivial
  · rfl

theorem stringValueDecoder_paced (g : Nat) : stringValueDecoder.Paced (g + 1) := fun _ => readString_paced fun _ => rfl

theorem anyValueDecoder_paced (g : Nat) : anyValueDecoder.Paced (g + 3) := fun _ => readLiteral_paced fun _ => rfl

theorem idValueDecoder_paced (fuel : Nat) : (idValueDecoder fuel).Paced 5 := by
  intro m
  refine nextType_paced (g := 3) fun t => ?_
  split
  · exact (skipValue_paced fuel 0).andThen _ fun _ => rfl
  · refine readString_paced fun t => ?_
    split
    · trivial
    · rfl

theorem mapLoop_paced {kd vd : ValueDecoder Str} (hk : kd.Paced 3) (hv : vd.Paced 5) (m : Option TagMap) (fuel : Nat) (result : Option TagMap) :
    (mapLoop kd vd m fuel result).Paced 5 := by
  induction fuel generalizing result with
  | zero => trivial
  | succ fuel ih =>
    refine nextType_paced (g := 3) fun t => ?_
    split
    · exact consume_paced .objectEnd rfl
    · exact (hk _).andThen _ fun _ => (hv _).andThen _ fun _ => ih _

theorem makeMapDecoder_paced {kd vd : ValueDecoder Str} (hk : kd.Paced 3) (hv : vd.Paced 5) (fuel g : Nat) :
    (makeMapDecoder fuel kd vd).Paced (g + 1) :=
  fun _ => consume_paced _ (mapLoop_paced hk hv _ _ _)

theorem sliceLoop_paced {α : Type} {newCap : Nat → Nat → Nat} {zero : α} {d : ValueDecoder α} (h : d.Paced 3) (fuel idx : Nat) (s : GoSlice α) :
    (sliceLoop newCap zero d fuel idx s).Paced 5 := by
  induction fuel generalizing idx s with
  | zero => trivial
  | succ fuel ih =>
    refine nextType_paced (g := 3) fun t => ?_
    split
    · exact consume_paced .arrayEnd rfl
    · exact (h _).andThen _ fun _ => ih _ _

theorem makeSliceDecoder_paced {α : Type} {newCap : Nat → Nat → Nat} {zero : α} {d : ValueDecoder α} (h : d.Paced 3) (fuel g : Nat) :
    (makeSliceDecoder newCap fuel zero d).Paced (g + 1) :=
  fun _ => consume_paced _ (sliceLoop_paced h _ _ _)

theorem arrayLoop_paced {α : Type} {skipFuel : Nat} {zero : α} {d : ValueDecoder α} (h : d.Paced 3) (fuel idx : Nat) (a : List α) :
    (arrayLoop skipFuel zero d fuel idx a).Paced 5 := by
  induction fuel generalizing idx a with
  | zero => trivial
  | succ fuel ih =>
    refine nextType_paced (g := 3) fun t => ?_
    split
    · exact consume_paced .arrayEnd rfl
    · split
      · exact (h _).andThen _ fun _ => ih _ _
      · exact (skipValue_paced _ 0).andThen _ fun _ => ih _ _

theorem makeArrayDecoder_paced {α : Type} {zero : α} {d : ValueDecoder α} (h : d.Paced 3) (fuel g : Nat) :
    (makeArrayDecoder fuel zero d).Paced (g + 1) :=
  fun _ => consume_paced _ (arrayLoop_paced h _ _ _)

theorem structLoop_paced {σ : Type} {skipFuel : Nat} {fields : List (Str × ValueDecoder σ)} (h : ∀ f ∈ fields, f.2.Paced 5) (fuel : Nat) (m : σ) :
    (structLoop skipFuel fields fuel m).Paced 5 := by
  induction fuel generalizing m with
  | zero => trivial
  | succ fuel ih =>
    refine nextType_paced (g := 3) fun t => ?_
    split
    · exact consume_paced .objectEnd rfl
    · refine readString_paced fun key => ?_
      split
      · rename_i d hd
        exact (h _ (lookup_mem hd) _).andThen _ fun _ => ih _
      · exact (skipValue_paced _ 2).andThen _ fun _ => ih _

theorem makeStructDecoder_paced {σ : Type} {fields : List (Str × ValueDecoder σ)} (h : ∀ f ∈ fields, f.2.Paced 5) (fuel g : Nat) :
    (makeStructDecoder fuel fields).Paced (g + 1) :=
  fun _ => consume_paced _ (structLoop_paced h _ _)

theorem endpointValueDecoder_paced (fuel g : Nat) : (endpointValueDecoder fuel).Paced (g + 1) := by
  refine makeStructDecoder_paced (fun f hf => ?_) fuel g
  simp only [List.mem_cons, List.not_mem_nil, or_false] at hf
  subst hf
  exact (stringValueDecoder_paced 4).field

theorem decoderSliceSpanV2_paced (newCap : Nat → Nat → Nat) (fuel : Nat) : (decoderSliceSpanV2 newCap fuel).Paced 5 := by
  refine makeSliceDecoder_paced (fun m => makeStructDecoder_paced (fun f hf => ?_) fuel 2 _) fuel 4
  simp only [spanV2Fields, List.mem_cons, List.not_mem_nil, or_false] at hf
  rcases hf with rfl | rfl | rfl | rfl | rfl | rfl | rfl | rfl | rfl <;> dsimp only
  · exact (idValueDecoder_paced fuel).field
  · exact (idValueDecoder_paced fuel).field
  · exact (idValueDecoder_paced fuel).field
  · exact (uint64ValueDecoder_paced 4).field
  · exact (uint64ValueDecoder_paced 4).field
  · exact (stringValueDecoder_paced 4).field
  · exact (makeMapDecoder_paced (stringValueDecoder_paced 2) (stringValueDecoder_paced 4) fuel 4).field
  · exact (stringValueDecoder_paced 4).field
  · exact (endpointValueDecoder_paced fuel 4).field

theorem binaryAnnotation_paced (fuel g : Nat) : (makeStructDecoder fuel (binaryAnnotationV1Fields fuel)).Paced (g + 1) := by
  refine makeStructDecoder_paced (fun f hf => ?_) fuel g
  simp only [binaryAnnotationV1Fields, List.mem_cons, List.not_mem_nil, or_false] at hf
  rcases hf with rfl | rfl | rfl <;> dsimp only
  · exact (stringValueDecoder_paced 4).field
  · exact (anyValueDecoder_paced 2).field
  · exact (endpointValueDecoder_paced fuel 4).field

theorem annotation_paced (fuel g : Nat) : (makeStructDecoder fuel (annotationV1Fields fuel)).Paced (g + 1) := by
  refine makeStructDecoder_paced (fun f hf => ?_) fuel g
  simp only [annotationV1Fields, List.mem_cons, List.not_mem_nil, or_false] at hf
  rcases hf with rfl | rfl | rfl <;> dsimp only
  · exact (uint64ValueDecoder_paced 4).field
  · exact (stringValueDecoder_paced 4).field
  · exact (endpointValueDecoder_paced fuel 4).field

theorem decoderSliceSpanV1_paced (newCap : Nat → Nat → Nat) (fuel : Nat) : (decoderSliceSpanV1 newCap fuel).Paced 5 := by
  refine makeSliceDecoder_paced (fun m => makeStructDecoder_paced (fun f hf => ?_) fuel 2 _) fuel 4
  simp only [spanV1Fields, List.mem_cons, List.not_mem_nil, or_false] at hf
  rcases hf with rfl | rfl | rfl | rfl | rfl | rfl | rfl | rfl <;> dsimp only
  · exact (idValueDecoder_paced fuel).field
  · exact (idValueDecoder_paced fuel).field
  · exact (idValueDecoder_paced fuel).field
  · exact (uint64ValueDecoder_paced 4).field
  · exact (uint64ValueDecoder_paced 4).field
  · exact (stringValueDecoder_paced 4).field
  · exact (makeSliceDecoder_paced (binaryAnnotation_paced fuel 2) fuel 4).field
  · exact (makeArrayDecoder_paced (annotation_paced fuel 2) fuel 4).field

end Verif
