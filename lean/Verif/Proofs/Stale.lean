import Verif.Proofs.Safe

/-!
# What else is in the buffer

A parser never looks at bytes of its buffer that it did not read: two parsers that differ only in these bytes have the same outcomes.
-/

namespace Verif

namespace Parser

/-- A parser whose buffer has the bytes `w` still to be used between bytes that do not matter. -/
def around (input : Reader) (pre w post : List UInt8) (eof : Bool) : Parser :=
  { input, buffer := pre ++ w ++ post, tail := pre.length, head := pre.length + w.length, eof }

/-- The parsers differ at most in the bytes of the buffer that do not matter. -/
def Alike (p q : Parser) : Prop :=
  ∃ input pre pre' w post post' eof, pre.length = pre'.length ∧ post.length = post'.length ∧ p = around input pre w post eof ∧ q = around input pre' w post' eof

theorem alike_around {input : Reader} {pre pre' w post post' : List UInt8} {eof : Bool} (h1 : pre.length = pre'.length) (h2 : post.length = post'.length) :
    Alike (around input pre w post eof) (around input pre' w post' eof) :=
  ⟨input, pre, pre', w, post, post', eof, h1, h2, rfl, rfl⟩

@[simp] theorem around_available (input : Reader) (pre w post : List UInt8) (eof : Bool) : (around input pre w post eof).available = w.length := by
  simp [around, available]

theorem around_get {input : Reader} {pre w post : List UInt8} {eof : Bool} {n : Nat} (hn : n < w.length) :
    (around input pre w post eof).buffer[(around input pre w post eof).tail + n]? = w[n]? := by
  simp only [around]
  rw [List.append_assoc, List.getElem?_append_right (by omega), List.getElem?_append_left (by omega)]
  congr 1
  omega

theorem around_advance {input : Reader} {pre w post : List UInt8} {eof : Bool} {n : Nat} (hn : n ≤ w.length) :
    { around input pre w post eof with tail := (around input pre w post eof).tail + n } = around input (pre ++ w.take n) (w.drop n) post eof := by
  simp only [around, Parser.mk.injEq, true_and, and_true]
  refine ⟨?_, ?_, ?_⟩
  · simp
  · simp; omega
  · simp; omega

/-- Reading more. -/
theorem around_bufferMore (input : Reader) (pre w post : List UInt8) :
    (around input pre w post false).bufferMore =
      let post0 := (pre ++ w ++ post).drop w.length
      let res := input.read post0.length
      match res.2.1 with
      | .eof => if res.1.length = 0 then .err (around res.2.2 [] w (res.1 ++ post0.drop res.1.length) true)
          else .ok () (around res.2.2 [] (w ++ res.1) (post0.drop res.1.length) true)
      | .fail => .err (around res.2.2 [] w (res.1 ++ post0.drop res.1.length) false)
      | .nil => .ok () (around res.2.2 [] (w ++ res.1) (post0.drop res.1.length) false) := by
  have hmoved : (if (around input pre w post false).tail > 0 then
        if (around input pre w post false).tail ≤ (around input pre w post false).head ∧
            (around input pre w post false).head ≤ (around input pre w post false).buffer.length ∧
            (around input pre w post false).available ≤ (around input pre w post false).buffer.length then
          some { around input pre w post false with
            buffer := ((around input pre w post false).buffer.drop (around input pre w post false).tail).take (around input pre w post false).available ++
              (around input pre w post false).buffer.drop (around input pre w post false).available,
            tail := 0, head := (around input pre w post false).available }
        else none
      else some (around input pre w post false)) = some (around input [] w ((pre ++ w ++ post).drop w.length) false) := by
    by_cases ht : pre = []
    · subst ht
      simp [around]
    · have : 0 < pre.length := List.length_pos_iff.mpr ht
      rw [if_pos (by simpa [around] using this), if_pos (by simp only [around, available, List.length_append]; omega)]
      simp only [around, available, Option.some.injEq, Parser.mk.injEq, true_and]
      refine ⟨?_, rfl, by simp, trivial⟩
      simp
  unfold bufferMore
  simp only [show (around input pre w post false).eof = false from rfl, Bool.false_eq_true, if_false]
  simp only [show (around input pre w post false).eof = false from rfl] at hmoved
  rw [hmoved]
  generalize (pre ++ w ++ post).drop w.length = post0
  simp only [show (around input [] w post0 false).buffer = w ++ post0 from by simp [around], show (around input [] w post0 false).head = w.length from by simp [around],
    show (around input [] w post0 false).input = input from rfl]
  rw [if_neg (by simp)]
  simp only [show (w ++ post0).length - w.length = post0.length from by simp]
  cases hres : input.read post0.length with
  | mk got rest =>
    obtain ⟨e, input'⟩ := rest
    simp only
    have hbuf : (w ++ post0).take w.length ++ got ++ (w ++ post0).drop (w.length + got.length) = w ++ (got ++ post0.drop got.length) := by
      rw [List.take_left, List.append_assoc, ← List.drop_drop, List.drop_left]
    cases e with
    | eof =>
      simp only [hbuf]
      split
      · simp [around]
      · simp [around]
    | fail => simp only [hbuf]; simp [around]
    | nil => simp only [hbuf]; simp [around]

/-- The same outcome, and parsers that differ at most in the bytes that do not matter. -/
def RunAlike {α : Type} : Run α → Run α → Prop
  | .ok a p, .ok b q => a = b ∧ Alike p q
  | .err p, .err q => Alike p q
  | .panic, .panic => True
  | .timeout, .timeout => True
  | _, _ => False

theorem bufferMore_alike {p q : Parser} (h : Alike p q) : RunAlike p.bufferMore q.bufferMore := by
  obtain ⟨input, pre, pre', w, post, post', eof, h1, h2, rfl, rfl⟩ := h
  cases eof with
  | true =>
    show RunAlike (Run.err _) (Run.err _)
    exact alike_around h1 h2
  | false =>
    rw [around_bufferMore, around_bufferMore]
    have hl : ((pre ++ w ++ post).drop w.length).length = ((pre' ++ w ++ post').drop w.length).length := by
      simp only [List.length_drop, List.length_append]; omega
    simp only
    rw [← hl]
    have hd : ∀ n, (((pre ++ w ++ post).drop w.length).drop n).length = (((pre' ++ w ++ post').drop w.length).drop n).length := by
      intro n; rw [List.length_drop (i := n), hl, ← List.length_drop]
    cases input.read ((pre ++ w ++ post).drop w.length).length with
    | mk got rest =>
      obtain ⟨e, input'⟩ := rest
      have ha : ∀ b, Alike (around input' [] w (got ++ ((pre ++ w ++ post).drop w.length).drop got.length) b)
          (around input' [] w (got ++ ((pre' ++ w ++ post').drop w.length).drop got.length) b) := by
        intro b
        refine alike_around rfl ?_
        rw [List.length_append, List.length_append, hd]
      have hb : ∀ b, Alike (around input' [] (w ++ got) (((pre ++ w ++ post).drop w.length).drop got.length) b)
          (around input' [] (w ++ got) (((pre' ++ w ++ post').drop w.length).drop got.length) b) := fun b => alike_around rfl (hd _)
      cases e with
      | eof =>
        simp only
        split
        · exact ha _
        · exact ⟨rfl, hb _⟩
      | fail => exact ha _
      | nil => exact ⟨rfl, hb _⟩

theorem alike_advance {input : Reader} {pre pre' w post post' : List UInt8} {eof : Bool} (h1 : pre.length = pre'.length) (h2 : post.length = post'.length)
    {n : Nat} (hn : n ≤ w.length) :
    Alike { around input pre w post eof with tail := (around input pre w post eof).tail + n }
      { around input pre' w post' eof with tail := (around input pre' w post' eof).tail + n } := by
  rw [around_advance hn, around_advance hn]
  exact alike_around (by rw [List.length_append, List.length_append, h1]) h2

theorem Alike.available {p q : Parser} (h : Alike p q) : p.available = q.available := by
  obtain ⟨input, pre, pre', w, post, post', eof, h1, h2, rfl, rfl⟩ := h
  simp

theorem Alike.get {p q : Parser} (h : Alike p q) {n : Nat} (hn : n < p.available) : p.buffer[p.tail + n]? = q.buffer[q.tail + n]? := by
  obtain ⟨input, pre, pre', w, post, post', eof, h1, h2, rfl, rfl⟩ := h
  simp only [around_available] at hn
  rw [around_get hn, around_get hn]

theorem Alike.current {p q : Parser} (h : Alike p q) (hn : p.tail < p.head) : p.current = q.current :=
  h.get (n := 0) (by unfold Parser.available; omega)

theorem Alike.advance {p q : Parser} (h : Alike p q) {n : Nat} (hn : n ≤ p.available) : Alike { p with tail := p.tail + n } { q with tail := q.tail + n } := by
  obtain ⟨input, pre, pre', w, post, post', eof, h1, h2, rfl, rfl⟩ := h
  simp only [around_available] at hn
  exact alike_advance h1 h2 hn

theorem Alike.taken {p q : Parser} (h : Alike p q) {n : Nat} (hn : n ≤ p.available) :
    (p.buffer.drop p.tail).take n = (q.buffer.drop q.tail).take n ∧ (p.tail + n > p.buffer.length ↔ q.tail + n > q.buffer.length) := by
  obtain ⟨input, pre, pre', w, post, post', eof, h1, h2, rfl, rfl⟩ := h
  simp only [around_available] at hn
  refine ⟨?_, ?_⟩
  · simp only [around, List.append_assoc, List.drop_left]
    rw [List.take_append_of_le_length hn, List.take_append_of_le_length hn]
  · simp only [around, List.length_append]; omega

theorem Alike.overwrite {p q : Parser} (h : Alike p q) {n : Nat} (hn : n ≤ p.available) {v : List UInt8} (hv : v.length = n) :
    Alike { p with buffer := p.buffer.take p.tail ++ v ++ p.buffer.drop (p.tail + n) } { q with buffer := q.buffer.take q.tail ++ v ++ q.buffer.drop (q.tail + n) } := by
  obtain ⟨input, pre, pre', w, post, post', eof, h1, h2, rfl, rfl⟩ := h
  simp only [around_available] at hn
  have key : ∀ pre post : List UInt8, { around input pre w post eof with
      buffer := (around input pre w post eof).buffer.take (around input pre w post eof).tail ++ v ++
        (around input pre w post eof).buffer.drop ((around input pre w post eof).tail + n) } = around input pre (v ++ w.drop n) post eof := by
    intro pre post
    simp only [around, Parser.mk.injEq, true_and, and_true]
    refine ⟨?_, ?_⟩
    · rw [List.append_assoc pre w post, List.take_left, ← List.drop_drop, List.drop_left, List.drop_append_of_le_length hn]
      simp
    · simp; omega
  rw [key, key]
  exact alike_around h1 h2

theorem skipWhitespace_alike (fuel : Nat) {p q : Parser} (h : Alike p q) : RunAlike (skipWhitespace fuel p) (skipWhitespace fuel q) := by
  induction fuel generalizing p q with
  | zero => trivial
  | succ fuel ih =>
    have hav := h.available
    unfold skipWhitespace
    by_cases ht : p.tail < p.head
    · have ht' : q.tail < q.head := by unfold Parser.available at hav; omega
      rw [if_pos ht, if_pos ht']
      have hc := h.current ht
      unfold Parser.current at hc
      rw [← hc]
      cases p.buffer[p.tail]? with
      | none => trivial
      | some c =>
        simp only
        split
        · exact ih (h.advance (n := 1) (by unfold Parser.available; omega))
        · exact ⟨rfl, h⟩
    · have ht' : ¬ q.tail < q.head := by unfold Parser.available at hav; omega
      rw [if_neg ht, if_neg ht']
      have hb := bufferMore_alike h
      revert hb
      cases p.bufferMore <;> cases q.bufferMore <;> intro hb <;> try first | exact hb | exact hb.elim
      exact ih hb.2

theorem finishString_alike {p q : Parser} (h : Alike p q) {n : Nat} (hn : n < p.available) (escaped : Bool) :
    RunAlike (p.finishString n escaped) (q.finishString n escaped) := by
  obtain ⟨t1, t2⟩ := h.taken (Nat.le_of_lt hn)
  unfold finishString
  by_cases hl : p.tail + n > p.buffer.length
  · rw [if_pos hl, if_pos (t2.mp hl)]; trivial
  · rw [if_neg hl, if_neg (fun hh => hl (t2.mpr hh))]
    simp only [← t1]
    cases escaped with
    | false =>
      refine ⟨rfl, ?_⟩
      exact h.advance (n := n + 1) hn
    | true =>
      simp only [if_true]
      have hlen : ((p.buffer.drop p.tail).take n).length = n := by
        simp only [List.length_take, List.length_drop]; omega
      generalize hv : (p.buffer.drop p.tail).take n = v at hlen
      have hd := unescapeLoop_spec (v.length + 1) { buf := v, n := 0, idx := 0 } (Nat.le_refl _) (Nat.zero_le _) (by simp)
      simp only [List.drop_zero, List.take_zero, List.nil_append] at hd
      rw [show unescapeLoop (v.length + 1) { buf := v, n := 0, idx := 0 } = decodeStringInPlace v from rfl] at hd
      rcases hu : Spec.unescape v with _ | x
      · rw [hu] at hd
        obtain ⟨st, e1, e2⟩ := hd
        rw [e1]
        exact h.overwrite (Nat.le_of_lt hn) (v := st.buf) (by omega)
      · rw [hu] at hd
        obtain ⟨st, e1, e2, e3, e4, e5, e6⟩ := hd
        rw [e1]
        refine ⟨rfl, ?_⟩
        have ho := h.overwrite (Nat.le_of_lt hn) (v := st.buf) (by omega)
        exact ho.advance (n := n + 1) hn

theorem readStringLoop_alike (fuel : Nat) {p q : Parser} (h : Alike p q) (n : Nat) (e e' : Bool) :
    RunAlike (readStringLoop fuel p n e e') (readStringLoop fuel q n e e') := by
  induction fuel generalizing p q n e e' with
  | zero => trivial
  | succ fuel ih =>
    have hav := h.available
    unfold readStringLoop
    rw [← hav]
    split
    · rename_i hn
      rw [← h.get hn]
      cases p.buffer[p.tail + n]? with
      | none => trivial
      | some c =>
        simp only
        split
        · exact ih h _ _ _
        · split
          · exact ih h _ _ _
          · split
            · exact finishString_alike h hn _
            · exact ih h _ _ _
    · have hb := bufferMore_alike h
      revert hb
      cases p.bufferMore <;> cases q.bufferMore <;> intro hb <;> try first | exact hb | exact hb.elim
      exact ih hb.2 _ _ _

theorem readNumberLoop_alike (fuel : Nat) {p q : Parser} (h : Alike p q) (n : Nat) : RunAlike (readNumberLoop fuel p n) (readNumberLoop fuel q n) := by
  induction fuel generalizing p q n with
  | zero => trivial
  | succ fuel ih =>
    have hav := h.available
    unfold readNumberLoop
    rw [← hav]
    split
    · rename_i hn
      rw [← h.get hn]
      obtain ⟨t1, t2⟩ := h.taken (Nat.le_of_lt hn)
      cases p.buffer[p.tail + n]? with
      | none => trivial
      | some c =>
        simp only
        split
        · by_cases hl : p.tail + n > p.buffer.length
          · rw [if_pos hl, if_pos (t2.mp hl)]; trivial
          · rw [if_neg hl, if_neg (fun hh => hl (t2.mpr hh))]
            exact ⟨t1, h.advance (Nat.le_of_lt hn)⟩
        · exact ih h _
    · have hb := bufferMore_alike h
      revert hb
      cases p.bufferMore <;> cases q.bufferMore <;> intro hb <;> try first | exact hb | exact hb.elim
      exact ih hb.2 _

theorem grow_alike {p q : Parser} (h : Alike p q) (n : Nat) :
    (p.grow n = none ∧ q.grow n = none) ∨ ∃ p' q', p.grow n = some p' ∧ q.grow n = some q' ∧ Alike p' q' := by
  have hav := h.available
  have h0 := h
  obtain ⟨input, pre, pre', w, post, post', eof, h1, h2, rfl, rfl⟩ := h
  have hl : (around input pre w post eof).buffer.length = (around input pre' w post' eof).buffer.length := by
    simp only [around, List.length_append]; omega
  unfold grow
  simp only [← hav, ← hl]
  split
  · split
    · exact .inl ⟨rfl, rfl⟩
    · refine .inr ⟨_, _, rfl, rfl, ?_⟩
      generalize List.replicate _ (0 : UInt8) = z
      exact ⟨input, pre, pre', w, post ++ z, post' ++ z, eof, h1, by simp [h2], by simp [around], by simp [around]⟩
  · exact .inr ⟨_, _, rfl, rfl, h0⟩

theorem require_alike (fuel : Nat) {p q : Parser} (h : Alike p q) (n : Nat) : RunAlike (require fuel p n) (require fuel q n) := by
  induction fuel generalizing p q with
  | zero => trivial
  | succ fuel ih =>
    have hav := h.available
    unfold require
    rw [← hav]
    split
    · rcases grow_alike h n with ⟨e1, e2⟩ | ⟨p', q', e1, e2, h'⟩
      · rw [e1, e2]; trivial
      · rw [e1, e2]
        simp only
        have hb := bufferMore_alike h'
        revert hb
        cases p'.bufferMore <;> cases q'.bufferMore <;> intro hb <;> try first | exact hb | exact hb.elim
        exact ih hb.2
    · exact ⟨rfl, h⟩

theorem Alike.ok {p q : Parser} (h : Alike p q) : p.Ok := by
  obtain ⟨input, pre, pre', w, post, post', eof, h1, h2, rfl, rfl⟩ := h
  exact ⟨by simp [around], by simp [around]⟩

theorem readN_alike (fuel : Nat) {p q : Parser} (h : Alike p q) (w : Word) : RunAlike (readN fuel p w.first w.length) (readN fuel q w.first w.length) := by
  have hr := require_alike fuel h w.length
  have hw : 0 < w.length := by cases w <;> decide
  have hs := (require_safe fuel p w.length h.ok).2
  unfold readN
  revert hr hs
  cases require fuel p w.length <;> cases require fuel q w.length <;> intro hr hs <;> try first | exact hr | exact hr.elim
  rename_i p' _ q'
  obtain ⟨-, h'⟩ := hr
  have hav := hs p' rfl
  obtain ⟨t1, t2⟩ := h'.taken hav
  simp only
  rw [← h'.current (by unfold Parser.available at hav; omega)]
  cases p'.current with
  | none => trivial
  | some c =>
    simp only
    split
    · exact h'
    · by_cases hl : p'.tail + w.length > p'.buffer.length
      · rw [if_pos hl, if_pos (t2.mp hl)]; trivial
      · rw [if_neg hl, if_neg (fun hh => hl (t2.mpr hh))]
        exact ⟨t1, h'.advance hav⟩

end Parser

open Parser in
theorem Op.run_alike (o : Op) (fuel : Nat) {p q : Parser} (h : Alike p q) (hne : o.needsByte = true → p.tail < p.head) :
    RunAlike (o.run fuel p) (o.run fuel q) := by
  cases o with
  | skipWhitespace => exact skipWhitespace_alike fuel h
  | current =>
    simp only [Op.run]
    rw [← h.current (hne rfl)]
    cases p.current with
    | none => trivial
    | some c => exact ⟨rfl, h⟩
  | consume t =>
    simp only [Op.run, Parser.consume]
    rw [← h.current (hne rfl)]
    cases p.current with
    | none => trivial
    | some c =>
      simp only
      split
      · exact h
      · exact ⟨rfl, h.advance (n := 1) (by have := hne rfl; unfold Parser.available; omega)⟩
  | readString =>
    simp only [Op.run, Parser.readString]
    rw [← h.current (hne rfl)]
    cases p.current with
    | none => trivial
    | some c =>
      simp only
      split
      · exact h
      · exact readStringLoop_alike fuel (h.advance (n := 1) (by have := hne rfl; unfold Parser.available; omega)) _ _ _
  | readNumber =>
    simp only [Op.run, Parser.readNumber]
    rw [← h.current (hne rfl)]
    cases p.current with
    | none => trivial
    | some c =>
      simp only
      split
      · exact h
      · exact readNumberLoop_alike fuel h _
  | readWord w => exact readN_alike fuel h w

/-- The same outcome. -/
def Decoded.Alike {σ : Type} : Decoded σ → Decoded σ → Prop
  | .ok m p, .ok m' q => m = m' ∧ p.Alike q
  | .err m p, .err m' q => m = m' ∧ p.Alike q
  | .panic, .panic => True
  | .timeout, .timeout => True
  | _, _ => False

/-- A program that looks before it reads does not see the bytes of the buffer that were not read. -/
theorem Prog.run_alike {σ : Type} {prog : Prog σ} {r : Bool} (hp : prog.Safe r) (fuel : Nat) {p q : Parser} (h : p.Alike q) (hr : r = true → p.tail < p.head) :
    (prog.run fuel p).Alike (prog.run fuel q) := by
  induction prog generalizing p q r with
  | done m => exact ⟨rfl, h⟩
  | fail m => exact ⟨rfl, h⟩
  | timeout => trivial
  | op o m k ih =>
    have hne : o.needsByte = true → p.tail < p.head := fun hh => hr (hp.1 hh)
    have ha := o.run_alike fuel h hne
    have hready := @Op.run_ready o fuel p
    simp only [Prog.run]
    revert ha hready
    cases o.run fuel p <;> cases o.run fuel q <;> intro ha hready <;> try first | exact ha | exact ha.elim
    · obtain ⟨rfl, h'⟩ := ha
      exact ih _ (hp.2 _) h' (fun hh => hready rfl hh hne)
    · exact ⟨rfl, ha⟩

theorem newWithReader_alike (r : Reader) {buf buf' : List UInt8} (hb : buf.length = buf'.length) :
    (Parser.newWithReader r buf).Alike (Parser.newWithReader r buf') :=
  ⟨r, [], [], [], buf, buf', false, rfl, hb, rfl, rfl⟩

end Verif
