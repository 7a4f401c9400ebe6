import Verif.Spec.Offsets
import Verif.Props.BinaryError

/-!
# The offsets of a partition
-/

namespace Verif

open Spec

theorem KafkaPartition.Steps.trans {p q r : KafkaPartition} (h : p.Steps q) (h' : q.Steps r) : p.Steps r := by
  induction h' with
  | refl => exact h
  | step _ hs ih => exact .step ih hs

theorem Spec.Accounted.mono {p q : KafkaPartition} {i : Nat} (h : Accounted p i) (hl : p.log <+: q.log) (hd : ∀ e ∈ p.delivered, e ∈ q.delivered) (hw : ∀ e ∈ p.warnings, e ∈ q.warnings) : Accounted q i := by
  obtain ⟨v, hv, h⟩ := h
  refine ⟨v, ?_, ?_⟩
  · obtain ⟨t, ht⟩ := hl
    rw [← ht, List.getElem?_append_left (List.getElem?_eq_some_iff.mp hv).1]
    exact hv
  · rcases h with ⟨s, hs, h⟩ | ⟨hn, line, hl, h⟩
    · exact .inl ⟨s, hs, hd _ h⟩
    · exact .inr ⟨hn, line, hl, hw _ h⟩

/-- What is known about a partition after any history. -/
structure OffsetInv (p : KafkaPartition) : Prop where
  lowest : p.lowest ≤ p.log.length
  committed : ∀ o, p.committed = some o → o ≤ p.log.length
  account : ∀ o, p.committed = some o → ∀ i, p.since ≤ i → i < o → Accounted p i
  next : ∀ r, p.session = some r → r.next ≤ p.log.length ∧ (∀ m, r.mark = some m → m ≤ r.next) ∧ (∀ o, p.committed = some o → ∃ m, r.mark = some m ∧ o ≤ m) ∧
    (∀ i, p.since ≤ i → i < r.next → Accounted p i) ∧ (∀ s, r.phase = .calling s → ∃ v, p.log[r.next]? = some v ∧ decodeKafkaMessage v = some s) ∧ (r.phase = .marking → Accounted p r.next)

theorem KafkaPartition.start_le {p : KafkaPartition} : p.start ≤ p.log.length := by
  unfold KafkaPartition.start
  split
  · split
    · next h => exact h.2
    · exact Nat.le_refl _
  · exact Nat.le_refl _

theorem KafkaPartition.committed_le_start {p : KafkaPartition} (inv : OffsetInv p) {o : Nat} (h : p.committed = some o) : o ≤ p.start := by
  unfold KafkaPartition.start
  rw [h]
  dsimp only
  split
  · exact Nat.le_refl _
  · exact inv.committed o h

theorem OffsetInv.step {p q : KafkaPartition} (inv : OffsetInv p) (h : p.Step q) : OffsetInv q := by
  cases h with
  | write v =>
    have up : ∀ {i}, Accounted p i → Accounted { p with log := p.log ++ [v] } i := fun h => h.mono (List.prefix_append _ _) (fun _ h => h) (fun _ h => h)
    refine ⟨?_, ?_, fun o ho i h1 h2 => up (inv.account o ho i h1 h2), ?_⟩
    · show p.lowest ≤ (p.log ++ [v]).length
      rw [List.length_append]; exact Nat.le_trans inv.lowest (Nat.le_add_right _ _)
    · intro o ho
      show o ≤ (p.log ++ [v]).length
      rw [List.length_append]; exact Nat.le_trans (inv.committed o ho) (Nat.le_add_right _ _)
    · intro r hr
      obtain ⟨h1, h2, h3, h4, h5, h6⟩ := inv.next r hr
      refine ⟨?_, h2, h3, fun i a b => up (h4 i a b), fun s hs => ?_, fun h => up (h6 h)⟩
      · show r.next ≤ (p.log ++ [v]).length
        rw [List.length_append]; exact Nat.le_trans h1 (Nat.le_add_right _ _)
      · obtain ⟨w, hw, hd⟩ := h5 s hs
        exact ⟨w, by show (p.log ++ [v])[r.next]? = _; rw [List.getElem?_append_left (List.getElem?_eq_some_iff.mp hw).1]; exact hw, hd⟩
  | delete h1 h2 => exact ⟨h2, inv.committed, inv.account, inv.next⟩
  | claim hn =>
    have key : ∀ i, (if p.committed = some p.start then p.since else p.start) ≤ i → i < p.start → Accounted p i := by
      intro i h1 h2
      split at h1
      · next hc => exact inv.account _ hc i h1 h2
      · omega
    refine ⟨inv.lowest, inv.committed, fun o ho i h1 h2 => key i h1 (Nat.lt_of_lt_of_le h2 (KafkaPartition.committed_le_start inv ho)), ?_⟩
    intro r hr
    cases hr
    exact ⟨KafkaPartition.start_le, fun m hm => KafkaPartition.committed_le_start inv hm, fun o ho => ⟨o, ho, Nat.le_refl _⟩, key, fun s hs => (by cases hs), fun h => by cases h⟩
  | @skip r v line hr hp hlow hv hd hl =>
    have up : ∀ {i}, Accounted p i → Accounted { p with session := some { r with next := r.next + 1 }, warnings := p.warnings ++ [(r.next, line)] } i :=
      fun h => h.mono List.prefix_rfl (fun _ h => h) (fun _ h => List.mem_append_left _ h)
    obtain ⟨h1, h2, h3, h4, h5, h6⟩ := inv.next r hr
    refine ⟨inv.lowest, inv.committed, fun o ho i a b => up (inv.account o ho i a b), ?_⟩
    intro r' hr'
    cases hr'
    refine ⟨(List.getElem?_eq_some_iff.mp hv).1, fun m hm => Nat.le_succ_of_le (h2 m hm), h3, fun i a b => ?_, fun s hs => ?_, fun h => ?_⟩
    · rcases Nat.lt_or_ge i r.next with h | h
      · exact up (h4 i a h)
      · have e : i = r.next := Nat.le_antisymm (Nat.lt_succ_iff.mp b) h
        subst e
        exact ⟨v, hv, .inr ⟨hd, line, hl, List.mem_append_right _ (List.mem_singleton_self _)⟩⟩
    · have : r.phase = .calling s := hs
      rw [hp] at this; cases this
    · have : r.phase = .marking := h
      rw [hp] at this; cases this
  | @call r v s hr hp hlow hv hd =>
    obtain ⟨h1, h2, h3, h4, h5, h6⟩ := inv.next r hr
    refine ⟨inv.lowest, inv.committed, inv.account, ?_⟩
    intro r' hr'
    cases hr'
    exact ⟨h1, h2, h3, h4, fun s' hs => (by cases hs; exact ⟨v, hv, hd⟩), fun h => by cases h⟩
  | @returns r s hr hp =>
    have up : ∀ {i}, Accounted p i → Accounted { p with session := some { r with phase := .marking }, delivered := p.delivered ++ [(r.next, s)] } i :=
      fun h => h.mono List.prefix_rfl (fun _ h => List.mem_append_left _ h) (fun _ h => h)
    obtain ⟨h1, h2, h3, h4, h5, h6⟩ := inv.next r hr
    refine ⟨inv.lowest, inv.committed, fun o ho i a b => up (inv.account o ho i a b), ?_⟩
    intro r' hr'
    cases hr'
    refine ⟨h1, h2, h3, fun i a b => up (h4 i a b), fun s hs => (by cases hs), fun _ => ?_⟩
    obtain ⟨v, hv, hd⟩ := h5 s hp
    exact ⟨v, hv, .inl ⟨s, hd, List.mem_append_right _ (List.mem_singleton_self _)⟩⟩
  | @mark r hr hp =>
    obtain ⟨h1, h2, h3, h4, h5, h6⟩ := inv.next r hr
    have hm : max (r.mark.getD 0) (r.next + 1) = r.next + 1 := by
      cases hmk : r.mark with
      | none => simp
      | some m => have := h2 m hmk; simp; omega
    have hacc := h6 hp
    refine ⟨inv.lowest, inv.committed, inv.account, ?_⟩
    intro r' hr'
    cases hr'
    refine ⟨(List.getElem?_eq_some_iff.mp hacc.choose_spec.1).1, fun m e => ?_, fun o ho => ⟨_, rfl, ?_⟩, fun i a b => ?_, fun s hs => (by cases hs), fun h => by cases h⟩
    · cases e
      exact Nat.le_of_eq hm
    · obtain ⟨m, hm', hle⟩ := h3 o ho
      have := h2 m hm'
      rw [hm]; omega
    · rcases Nat.lt_or_ge i r.next with h | h
      · exact h4 i a h
      · have e : i = r.next := Nat.le_antisymm (Nat.lt_succ_iff.mp b) h
        subst e
        exact hacc
  | @commit r hr =>
    obtain ⟨h1, h2, h3, h4, h5, h6⟩ := inv.next r hr
    refine ⟨inv.lowest, fun o ho => Nat.le_trans (h2 o ho) h1, fun o ho i a b => h4 i a (Nat.lt_of_lt_of_le b (h2 o ho)), ?_⟩
    intro r' hr'
    cases hr.symm.trans hr'
    exact ⟨h1, h2, fun o ho => ⟨o, ho, Nat.le_refl _⟩, h4, h5, h6⟩
  | done _ _ => exact ⟨inv.lowest, inv.committed, inv.account, fun r h => by cases h⟩
  | crash => exact ⟨inv.lowest, inv.committed, inv.account, fun r h => by cases h⟩

theorem OffsetInv.reach {p q : KafkaPartition} (inv : OffsetInv p) (h : p.Steps q) : OffsetInv q := by
  induction h with
  | refl => exact inv
  | step _ hs ih => exact ih.step hs

theorem OffsetInv.init : OffsetInv {} :=
  ⟨Nat.le_refl _, fun _ h => (by cases h), fun _ h => (by cases h), fun _ h => (by cases h)⟩

theorem offsetInv {p : KafkaPartition} (h : KafkaPartition.Steps {} p) : OffsetInv p := OffsetInv.init.reach h

/-! ## What is never read again -/

/-- No claim will be at this message any more. -/
structure Past (i : Nat) (p : KafkaPartition) : Prop where
  written : i < p.log.length
  committed : ∀ o, p.committed = some o → i < o ∨ o < p.lowest
  session : ∀ r, p.session = some r → i < r.next ∧ ∀ m, r.mark = some m → i < m ∨ m < p.lowest

theorem Past.start {i : Nat} {p : KafkaPartition} (h : Past i p) : i < p.start := by
  unfold KafkaPartition.start
  cases hc : p.committed with
  | none => exact h.written
  | some o =>
    dsimp only
    split
    · next hin =>
      rcases h.committed o hc with h' | h'
      · exact h'
      · omega
    · exact h.written

theorem Past.step {i : Nat} {p q : KafkaPartition} (h : Past i p) (hs : p.Step q) :
    Past i q ∧ (q.delivered.filter fun e => e.1 = i) = (p.delivered.filter fun e => e.1 = i) ∧ (q.warnings.filter fun e => e.1 = i) = (p.warnings.filter fun e => e.1 = i) := by
  cases hs with
  | write v =>
    refine ⟨⟨?_, h.committed, h.session⟩, rfl, rfl⟩
    show i < (p.log ++ [v]).length
    rw [List.length_append]; exact Nat.lt_of_lt_of_le h.written (Nat.le_add_right _ _)
  | delete h1 h2 =>
    refine ⟨⟨h.written, fun o ho => (h.committed o ho).imp_right fun h' => Nat.lt_of_lt_of_le h' h1, fun r hr => ⟨(h.session r hr).1, fun m hm => ((h.session r hr).2 m hm).imp_right fun h' => Nat.lt_of_lt_of_le h' h1⟩⟩, rfl, rfl⟩
  | claim hn =>
    refine ⟨⟨h.written, h.committed, fun r hr => ?_⟩, rfl, rfl⟩
    cases hr
    exact ⟨h.start, fun m hm => h.committed m hm⟩
  | @skip r v line hr hp hlow hv hd hl =>
    have hlt := (h.session r hr).1
    refine ⟨⟨h.written, h.committed, fun r' hr' => ?_⟩, rfl, ?_⟩
    · cases hr'
      exact ⟨Nat.lt_succ_of_lt hlt, (h.session r hr).2⟩
    · show ((p.warnings ++ [(r.next, line)]).filter _) = _
      rw [List.filter_append, List.filter_cons_of_neg (by simp; omega)]
      simp
  | @call r v s hr hp hlow hv hd =>
    refine ⟨⟨h.written, h.committed, fun r' hr' => ?_⟩, rfl, rfl⟩
    cases hr'
    exact h.session r hr
  | @returns r s hr hp =>
    have hlt := (h.session r hr).1
    refine ⟨⟨h.written, h.committed, fun r' hr' => ?_⟩, ?_, rfl⟩
    · cases hr'
      exact h.session r hr
    · show ((p.delivered ++ [(r.next, s)]).filter _) = _
      rw [List.filter_append, List.filter_cons_of_neg (by simp; omega)]
      simp
  | @mark r hr hp =>
    have hlt := (h.session r hr).1
    refine ⟨⟨h.written, h.committed, fun r' hr' => ?_⟩, rfl, rfl⟩
    cases hr'
    refine ⟨Nat.lt_succ_of_lt hlt, fun m hm => ?_⟩
    cases hm
    left
    have := Nat.le_max_right (r.mark.getD 0) (r.next + 1)
    omega
  | @commit r hr => exact ⟨⟨h.written, fun o ho => (h.session r hr).2 o ho, h.session⟩, rfl, rfl⟩
  | done _ _ => exact ⟨⟨h.written, h.committed, fun r hr => by cases hr⟩, rfl, rfl⟩
  | crash => exact ⟨⟨h.written, h.committed, fun r hr => by cases hr⟩, rfl, rfl⟩

theorem Past.steps {i : Nat} {p q : KafkaPartition} (h : Past i p) (hs : p.Steps q) :
    Past i q ∧ (q.delivered.filter fun e => e.1 = i) = (p.delivered.filter fun e => e.1 = i) ∧ (q.warnings.filter fun e => e.1 = i) = (p.warnings.filter fun e => e.1 = i) := by
  induction hs with
  | refl => exact ⟨h, rfl, rfl⟩
  | step _ hs ih =>
    obtain ⟨h1, h2, h3⟩ := ih.1.step hs
    exact ⟨h1, h2.trans ih.2.1, h3.trans ih.2.2⟩

/-! ## A session that is not disturbed -/

theorem consumeLog_some {v : List UInt8} (h : decodeKafkaMessage v = none) : ∃ line, consumeLog v = some line := by
  cases hl : consumeLog v with
  | some line => exact ⟨line, rfl⟩
  | none =>
    obtain ⟨s, hs⟩ := (C107_log v).1.mp hl
    rw [h] at hs
    cases hs

/-- It goes on to any message that is there. -/
theorem KafkaPartition.advance {p : KafkaPartition} {r : Reading} (hr : p.session = some r) (hp : r.phase = .reading) (hlow : p.lowest ≤ r.next) :
    ∀ (n : Nat), r.next + n ≤ p.log.length → ∃ q r', p.Steps q ∧ q.log = p.log ∧ q.lowest = p.lowest ∧ q.committed = p.committed ∧ q.since = p.since ∧ q.session = some r' ∧ r'.phase = .reading ∧ r'.next = r.next + n := by
  intro n
  induction n with
  | zero => exact fun _ => ⟨p, r, .refl, rfl, rfl, rfl, rfl, hr, hp, rfl⟩
  | succ n ih =>
    intro hle
    obtain ⟨q, r', h1, h2, h3, h4, h4', h5, h6, h7⟩ := ih (by omega)
    have hlt : r'.next < q.log.length := by rw [h2]; omega
    have hv : q.log[r'.next]? = some q.log[r'.next] := List.getElem?_eq_getElem hlt
    have hlow' : q.lowest ≤ r'.next := by rw [h3]; omega
    cases hd : decodeKafkaMessage q.log[r'.next] with
    | none =>
      obtain ⟨line, hl⟩ := consumeLog_some hd
      exact ⟨_, _, .step h1 (.skip h5 h6 hlow' hv hd hl), h2, h3, h4, h4', rfl, h6, by show r'.next + 1 = _; omega⟩
    | some s =>
      exact ⟨_, _, .step (.step (.step h1 (.call h5 h6 hlow' hv hd)) (.returns rfl rfl)) (.mark rfl rfl), h2, h3, h4, h4', rfl, rfl, by show r'.next + 1 = _; omega⟩

end Verif
