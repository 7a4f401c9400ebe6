import Verif.Model.Parser
import Verif.Proofs.JsonString
import Verif.Spec.Lex

/-!
# The parser reads a stream of bytes

The operations of the parser, whose state is a buffer and a reader, act on the sequence of bytes `Parser.rest` that is still to be read.
-/

namespace Verif

namespace Parser

/-- The bytes in the buffer. -/
def window (p : Parser) : List UInt8 := (p.buffer.drop p.tail).take (p.head - p.tail)

/-- The bytes still to be read. -/
def rest (p : Parser) : List UInt8 := p.window ++ if p.eof then [] else p.input.data

/-- The indices are in order. -/
structure Ok (p : Parser) : Prop where
  th : p.tail ≤ p.head
  hb : p.head ≤ p.buffer.length

/-- A bound on the number of iterations. -/
def work (p : Parser) : Nat :=
  (if p.eof then 0 else 2 * p.input.data.length + p.input.script.length + 1) + p.available

theorem window_length {p : Parser} (h : p.Ok) : p.window.length = p.available := by
  have := h.th
  have := h.hb
  simp only [window, available, List.length_take, List.length_drop]
  omega

theorem available_le {p : Parser} (h : p.Ok) : p.available ≤ p.buffer.length := by
  have := h.hb
  unfold available
  omega

theorem window_get {p : Parser} {n : Nat} (hn : n < p.available) : p.buffer[p.tail + n]? = p.window[n]? := by
  unfold window available at *
  rw [List.getElem?_take, if_pos hn, List.getElem?_drop]

theorem rest_get {p : Parser} (h : p.Ok) {n : Nat} (hn : n < p.available) : p.buffer[p.tail + n]? = p.rest[n]? := by
  rw [window_get hn, rest, List.getElem?_append_left (by rw [window_length h]; exact hn)]

theorem buffer_get {p : Parser} (h : p.Ok) {n : Nat} (hn : n < p.available) : ∃ c, p.buffer[p.tail + n]? = some c := by
  have := h.th
  have := h.hb
  unfold available at hn
  exact ⟨_, List.getElem?_eq_getElem (by omega)⟩

theorem available_le_rest {p : Parser} (h : p.Ok) : p.available ≤ p.rest.length := by
  rw [← window_length h, rest, List.length_append]
  omega

theorem window_take_rest {p : Parser} (h : p.Ok) {n : Nat} (hn : n ≤ p.available) : (p.buffer.drop p.tail).take n = p.rest.take n := by
  rw [rest, List.take_append_of_le_length (by rw [window_length h]; exact hn), window, List.take_take,
    Nat.min_eq_left (by unfold available at hn; exact hn)]

/-- The parser after the first `n` bytes of the buffer. -/
theorem advance {p : Parser} (h : p.Ok) {n : Nat} (hn : n ≤ p.available) :
    ({ p with tail := p.tail + n } : Parser).Ok ∧ ({ p with tail := p.tail + n } : Parser).rest = p.rest.drop n ∧
    ({ p with tail := p.tail + n } : Parser).work + n = p.work := by
  have h1 := h.th
  have h2 := h.hb
  have hn' := hn
  unfold available at hn'
  refine ⟨⟨by simp only; omega, h2⟩, ?_, ?_⟩
  · unfold rest
    rw [List.drop_append_of_le_length (by rw [window_length h]; exact hn)]
    congr 1
    simp only [window]
    rw [← List.drop_drop, List.drop_take]
    congr 1
    omega
  · simp only [work, available]
    omega

/-- The parser after overwriting and passing the first `n` bytes, and one more. -/
theorem overwrite {p : Parser} (h : p.Ok) {n : Nat} (hn : n ≤ p.available) {v : List UInt8} (hv : v.length = n) :
    ({ p with buffer := p.buffer.take p.tail ++ v ++ p.buffer.drop (p.tail + n) } : Parser).Ok ∧
    (p.buffer.take p.tail ++ v ++ p.buffer.drop (p.tail + n)).length = p.buffer.length ∧
    ∀ k, n ≤ k → (p.buffer.take p.tail ++ v ++ p.buffer.drop (p.tail + n)).drop (p.tail + k) = p.buffer.drop (p.tail + k) := by
  have h1 := h.th
  have h2 := h.hb
  unfold available at hn
  have hl : (p.buffer.take p.tail ++ v ++ p.buffer.drop (p.tail + n)).length = p.buffer.length := by
    simp only [List.length_append, List.length_take, List.length_drop]
    omega
  refine ⟨⟨h1, by simp only [hl]; exact h2⟩, hl, ?_⟩
  intro k hk
  rw [List.drop_append, List.drop_of_length_le (by simp; omega), List.nil_append, List.drop_drop]
  congr 1
  simp
  omega

/-- The bytes of a reader: what it gives is a prefix of its data, the rest follows; it reports the end only when nothing is left; and it
makes progress. -/
theorem read_spec (r : Reader) (n : Nat) :
    ∃ got e r', r.read n = (got, e, r') ∧ r.data = got ++ r'.data ∧ got.length ≤ n ∧
      (e = .eof → r'.data = []) ∧ (e = .fail → r'.data = [] ∧ got = []) ∧
      (0 < n → e = .nil → 2 * r'.data.length + r'.script.length + got.length < 2 * r.data.length + r.script.length) := by
  unfold Reader.read
  split
  · rename_i h
    exact ⟨_, _, _, rfl, by simp, by simp, by simp, by simp, by omega⟩
  · split
    · rename_i s script hs
      simp only
      split
      · rename_i hc
        refine ⟨_, _, _, rfl, by simp, by simp; omega, fun _ => hc.1, ?_, ?_⟩
        · intro he
          refine ⟨hc.1, hc.2.2 ?_⟩
          unfold Reader.endErr at he
          split at he
          · assumption
          · simp at he
        · intro _ he
          unfold Reader.endErr at he
          split at he <;> simp at he
      · refine ⟨_, _, _, rfl, by simp, by simp; omega, by simp, by simp, ?_⟩
        intro _ _
        simp only [hs, List.length_drop, List.length_take, List.length_cons]
        omega
    · rename_i hs
      split
      · rename_i hd
        refine ⟨_, _, _, rfl, by simp, by simp, fun _ => hd, fun _ => ⟨hd, rfl⟩, ?_⟩
        intro _ he
        unfold Reader.endErr at he
        split at he <;> simp at he
      · rename_i hd
        refine ⟨_, _, _, rfl, by simp, by simp; omega, by simp, by simp, ?_⟩
        intro h0 _
        have : r.data.length ≠ 0 := by simpa using hd
        simp only [List.length_drop, List.length_take]
        omega

/-- Loading more data: an error only if there is none; otherwise the stream stays the same, with more of it in the buffer. -/
theorem bufferMore_spec {p : Parser} (h : p.Ok) :
    (∃ p', p.bufferMore = .err p' ∧ p'.Ok ∧ p'.buffer.length = p.buffer.length ∧ p.rest = p.window) ∨
    (∃ p', p.bufferMore = .ok () p' ∧ p'.Ok ∧ p'.buffer.length = p.buffer.length ∧ p'.rest = p.rest ∧
      p.available ≤ p'.available ∧ (p.available < p.buffer.length → p'.work < p.work)) := by
  have h1 := h.th
  have h2 := h.hb
  by_cases he : p.eof = true
  · left
    refine ⟨p, by simp [bufferMore, he], h, rfl, by simp [rest, he]⟩
  · -- the parser after the bytes were moved to the front
    obtain ⟨p0, hm, g1, g2, g3, g4, g5, g6, g7⟩ : ∃ p0 : Parser,
        (if p.tail > 0 then
          if p.tail ≤ p.head ∧ p.head ≤ p.buffer.length ∧ p.available ≤ p.buffer.length then
            some ({ p with
              buffer := (p.buffer.drop p.tail).take p.available ++ p.buffer.drop p.available, tail := 0, head := p.available } : Parser)
          else none
        else some p) = some p0 ∧ p0.tail = 0 ∧ p0.Ok ∧ p0.buffer.length = p.buffer.length ∧ p0.input = p.input ∧ p0.eof = p.eof ∧
        p0.window = p.window ∧ p0.head = p.available := by
      by_cases ht : p.tail > 0
      · rw [if_pos ht, if_pos ⟨h1, h2, available_le h⟩]
        have hw : ((p.buffer.drop p.tail).take p.available).length = p.available := by
          simp only [List.length_take, List.length_drop, available]; omega
        have hl : ((p.buffer.drop p.tail).take p.available ++ p.buffer.drop p.available).length = p.buffer.length := by
          rw [List.length_append, hw, List.length_drop]
          have := available_le h
          omega
        refine ⟨_, rfl, rfl, ⟨Nat.zero_le _, by simp only [hl]; exact available_le h⟩, hl, rfl, rfl, ?_, rfl⟩
        simp only [window, List.drop_zero, Nat.sub_zero]
        rw [List.take_left' hw]
        rfl
      · rw [if_neg ht]
        have : p.tail = 0 := by omega
        exact ⟨p, rfl, this, h, rfl, rfl, rfl, rfl, by simp [available, this]⟩
    obtain ⟨got, e, r', hr, r1, r2, r3, r4, r5⟩ := read_spec p0.input (p0.buffer.length - p0.head)
    have hb0 := g2.hb
    have hal := available_le h
    -- the buffer afterwards
    have hlen : (p0.buffer.take p0.head ++ got ++ p0.buffer.drop (p0.head + got.length)).length = p0.buffer.length := by
      simp only [List.length_append, List.length_take, List.length_drop]
      omega
    have hwin : (p0.buffer.take p0.head ++ got ++ p0.buffer.drop (p0.head + got.length)).take (p0.head + got.length) = p.window ++ got := by
      rw [List.take_left' (by simp; omega), ← g6, window, g1, List.drop_zero, Nat.sub_zero]
    have hbm : p.bufferMore =
        (match (generalizing := false) e with
        | .eof =>
          if got.length = 0 then .err { p0 with input := r', buffer := p0.buffer.take p0.head ++ got ++ p0.buffer.drop (p0.head + got.length), eof := true }
          else .ok () { p0 with input := r', buffer := p0.buffer.take p0.head ++ got ++ p0.buffer.drop (p0.head + got.length), eof := true, head := p0.head + got.length }
        | .fail => .err { p0 with input := r', buffer := p0.buffer.take p0.head ++ got ++ p0.buffer.drop (p0.head + got.length) }
        | .nil => .ok () { p0 with input := r', buffer := p0.buffer.take p0.head ++ got ++ p0.buffer.drop (p0.head + got.length), head := p0.head + got.length }) := by
      unfold bufferMore
      rw [if_neg he]
      simp only [hm]
      rw [if_neg (by omega), hr]
      cases e <;> rfl
    rw [hbm]
    have hdata : p.rest = p.window ++ (got ++ r'.data) := by
      rw [rest, if_neg he, ← r1, g4]
    have hg4 : r'.data = [] → p.rest = p.window ++ got := by
      intro hn; rw [hdata, hn, List.append_nil]
    rcases e with _ | _ | _
    · right
      refine ⟨_, rfl, ⟨by simp [g1], by simp only [hlen]; omega⟩, by simp only [hlen]; exact g3, ?_, ?_, ?_⟩
      · rw [rest, window]
        simp only [g1, List.drop_zero, Nat.sub_zero, hwin, g5, he, hdata]
        simp
      · simp only [available, g1, g7]; omega
      · intro hf
        have := r5 (by omega) rfl
        simp only [work, available, g1, g7, g5, he]
        simp only [g4] at this
        simp
        omega
    · simp only
      split
      · rename_i hz
        left
        refine ⟨_, rfl, ⟨by simp [g1], by simp only [hlen]; omega⟩, by simp only [hlen]; exact g3, ?_⟩
        rw [hg4 (r3 rfl), List.length_eq_zero_iff.mp hz, List.append_nil]
      · right
        refine ⟨_, rfl, ⟨by simp [g1], by simp only [hlen]; omega⟩, by simp only [hlen]; exact g3, ?_, ?_, ?_⟩
        · rw [rest, window]
          simp only [g1, List.drop_zero, Nat.sub_zero, hwin, if_true]
          rw [hg4 (r3 rfl), List.append_nil]
        · simp only [available, g1, g7]; omega
        · intro hf
          have : p.input.data.length = got.length + r'.data.length := by rw [← g4, r1, List.length_append]
          simp only [work, available, g1, g7, if_true, he]
          simp
          omega
    · left
      obtain ⟨q1, q2⟩ := r4 rfl
      refine ⟨_, rfl, ⟨by simp [g1], by simp only [hlen]; omega⟩, by simp only [hlen]; exact g3, ?_⟩
      rw [hg4 q1, q2, List.append_nil]

end Parser

end Verif
