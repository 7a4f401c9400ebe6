import Verif.Spec.Pipeline

/-!
# The ring is a rotation of the last spans
-/

namespace Verif

theorem lastOf_length {α} (n : Nat) (l : List α) (h : n ≤ l.length) : (lastOf n l).length = n := by
  simp [lastOf]; omega

theorem lastOf_all {α} (n : Nat) (l : List α) (h : l.length ≤ n) : lastOf n l = l := by
  have : l.length - n = 0 := by omega
  simp [lastOf, this]

theorem lastOf_snoc {α} {n : Nat} {l : List α} {x : α} {xs : List α} (h : lastOf n l = x :: xs) (hn : n ≤ l.length) (s : α) :
    lastOf n (l ++ [s]) = xs ++ [s] := by
  unfold lastOf at *
  have hx : n = xs.length + 1 := by
    have := congrArg List.length h
    simp at this; omega
  rw [List.length_append, List.length_singleton, show l.length + 1 - n = (l.length - n) + 1 by omega,
    List.drop_append_of_le_length (by omega), List.drop_add_one_eq_tail_drop, h]
  rfl

/-- The ring after `l` was received: the last spans, rotated. Unused slots are empty spans. -/
def Rotated (cap : Nat) (l : List Span) (r : Ring) : Prop :=
  ∃ a b, lastOf cap (List.replicate cap ({} : Span) ++ l) = a ++ b ∧ r.spans = b ++ a ∧ r.position = b.length ∧ b.length = l.length % cap

theorem rotated_new {cap : Nat} : Rotated cap [] (Ring.new cap) := by
  refine ⟨List.replicate cap ({} : Span), [], ?_, ?_, rfl, by simp⟩
  · rw [List.append_nil, lastOf_all _ _ (by simp)]
  · simp [Ring.new]

theorem rotated_push {cap : Nat} {l : List Span} {r : Ring} (h : Rotated cap l r) (hc : 0 < cap) (s : Span) :
    ∃ r', r.push s = some r' ∧ Rotated cap (l ++ [s]) r' := by
  obtain ⟨a, b, hl, hs, hp, hb⟩ := h
  have hlen : a.length + b.length = cap := by
    have := lastOf_length cap (List.replicate cap ({} : Span) ++ l) (by simp)
    rw [hl, List.length_append] at this; exact this
  have hlt : b.length < cap := by rw [hb]; exact Nat.mod_lt _ hc
  cases a with
  | nil => simp at hlen; omega
  | cons x a =>
    simp only [List.length_cons] at hlen
    have hsp : r.spans.length = cap := by rw [hs]; simp; omega
    refine ⟨{ position := (r.position + 1) % r.spans.length, spans := r.spans.set r.position s }, ?_, ?_⟩
    · unfold Ring.push
      rw [if_pos (by rw [hp, hsp]; exact hlt)]
    · have hnew : lastOf cap (List.replicate cap ({} : Span) ++ (l ++ [s])) = a ++ b ++ [s] := by
        rw [← List.append_assoc]
        exact lastOf_snoc (x := x) (xs := a ++ b) (by rw [hl]; rfl) (by simp) s
      have hset : r.spans.set r.position s = b ++ s :: a := by
        rw [hs, hp, List.set_append_right _ _ (Nat.le_refl _)]; simp
      have hmod : (l ++ [s]).length % cap = (b.length + 1) % cap := by
        rw [List.length_append, List.length_singleton, hb, Nat.mod_add_mod]
      by_cases ha : a = []
      · subst ha
        have hcap : cap = b.length + 1 := by simp at hlen; omega
        refine ⟨b ++ [s], [], by rw [hnew]; simp, by rw [hset]; simp, ?_, ?_⟩
        · show (r.position + 1) % r.spans.length = 0
          rw [hp, hsp, ← hcap, Nat.mod_self]
        · rw [hmod, ← hcap, Nat.mod_self]; rfl
      · have : b.length + 1 < cap := by
          have := List.length_pos_iff.mpr ha; omega
        refine ⟨a, b ++ [s], by rw [hnew]; simp, by rw [hset]; simp, ?_, ?_⟩
        · show (r.position + 1) % r.spans.length = _
          rw [hp, hsp, Nat.mod_eq_of_lt this]; simp
        · rw [hmod, Nat.mod_eq_of_lt this]; simp

theorem rotated_trace {cap : Nat} (hc : 0 < cap) : ∀ (t : List Span) {l : List Span} {r : Ring}, Rotated cap l r →
    ∃ r', r.pushTrace t = some r' ∧ Rotated cap (l ++ t) r'
  | [], l, r, h => ⟨r, rfl, by rw [List.append_nil]; exact h⟩
  | s :: t, l, r, h => by
    obtain ⟨r1, h1, h2⟩ := rotated_push h hc s
    obtain ⟨r2, h3, h4⟩ := rotated_trace hc t h2
    refine ⟨r2, ?_, by rw [List.append_assoc] at h4; exact h4⟩
    simp only [Ring.pushTrace, h1, Option.bind_some, h3]

theorem rotated_read {cap : Nat} (hc : 0 < cap) : ∀ (ts : List (List Span)) {l : List Span} {r : Ring}, Rotated cap l r →
    ∃ r', r.readFrom ts = some r' ∧ Rotated cap (l ++ ts.flatten) r'
  | [], l, r, h => ⟨r, rfl, by rw [List.flatten_nil, List.append_nil]; exact h⟩
  | t :: ts, l, r, h => by
    obtain ⟨r1, h1, h2⟩ := rotated_trace hc t h
    obtain ⟨r2, h3, h4⟩ := rotated_read hc ts h2
    refine ⟨r2, ?_, by rw [List.append_assoc] at h4; exact h4⟩
    simp only [Ring.readFrom, h1, Option.bind_some, h3]

theorem toSlice_eq (r : Ring) : r.toSlice = r.spans.filter (fun s => s.Visible) := by
  unfold Ring.toSlice
  have : ∀ (l acc : List Span), l.foldl (fun result span => if span.id ≠ 0 then result ++ [span] else result) acc = acc ++ l.filter (fun s => s.Visible) := by
    intro l
    induction l with
    | nil => intro acc; simp
    | cons s l ih =>
      intro acc
      rw [List.foldl_cons, ih, List.filter_cons]
      by_cases h : s.id = 0
      · rw [if_neg (by simp [h]), if_neg (by simp [Span.Visible, h])]
      · rw [if_pos (by simp [h]), if_pos (by simp [Span.Visible, h])]; simp
  rw [this]; rfl

/-- The view is a rotation of the last spans. -/
theorem Rotated.view {cap : Nat} {l : List Span} {r : Ring} (h : Rotated cap l r) (hc : 0 < cap) :
    ∃ a b, lastOf cap l = a ++ b ∧ r.toSlice = b.filter (fun s => s.Visible) ++ a.filter (fun s => s.Visible) ∧ b.length = l.length % cap := by
  obtain ⟨a, b, hl, hs, hp, hb⟩ := h
  rw [toSlice_eq, hs, List.filter_append]
  by_cases hlen : cap ≤ l.length
  · refine ⟨a, b, ?_, rfl, hb⟩
    rw [← hl]
    unfold lastOf
    have : List.drop ((List.replicate cap ({} : Span) ++ l).length - cap) (List.replicate cap ({} : Span)) = [] :=
      List.drop_of_length_le (by simp only [List.length_append, List.length_replicate]; omega)
    rw [List.drop_append, this, List.nil_append, List.length_append, List.length_replicate]
    congr 1; omega
  · have hb' : b.length = l.length := by rw [hb, Nat.mod_eq_of_lt (by omega)]
    have hl' : a ++ b = List.replicate (cap - l.length) ({} : Span) ++ l := by
      rw [← hl]
      unfold lastOf
      rw [List.length_append, List.length_replicate, List.drop_append_of_le_length (by simp; omega), List.drop_replicate]
      congr 2; omega
    obtain ⟨h1, h2⟩ := List.append_inj' hl' hb'
    refine ⟨[], l, ?_, ?_, ?_⟩
    · rw [lastOf_all _ _ (by omega)]; rfl
    · rw [h2, h1]
      congr 1
      rw [List.filter_eq_nil_iff.mpr]
      · rfl
      · intro s hs
        rw [List.mem_replicate] at hs
        simp [hs.2, Span.Visible]
    · rw [Nat.mod_eq_of_lt (by omega)]

end Verif
