import Verif.Spec.Pipeline

/-!
# The forwarder
-/

namespace Verif

variable {κ : Type} {conv : κ → Span → Option Span × κ}

/-- The loop compacts the converted spans to the front of the array. -/
theorem convertLoop_spec : ∀ (fuel idx n : Nat) (k : κ) (cells : List Span), n ≤ idx → idx + fuel = cells.length →
    (convertLoop conv fuel idx n k cells).2.1 = (convertAll conv k (cells.drop idx)).2 ∧
    (convertLoop conv fuel idx n k cells).2.2.take (convertLoop conv fuel idx n k cells).1 = cells.take n ++ (convertAll conv k (cells.drop idx)).1 ∧
    (convertLoop conv fuel idx n k cells).2.2.length = cells.length
  | 0, idx, n, k, cells, _, h => by
    rw [List.drop_of_length_le (by omega)]
    simp [convertLoop, convertAll]
  | fuel + 1, idx, n, k, cells, hn, h => by
    have hlt : idx < cells.length := by omega
    rw [List.drop_eq_getElem_cons hlt]
    have hget : cells.getD idx {} = cells[idx] := by
      rw [List.getD_eq_getElem?_getD, List.getElem?_eq_getElem hlt]; rfl
    simp only [convertLoop, convertAll, hget]
    cases hc : (conv k cells[idx]).1 with
    | none =>
      simp only [Option.toList_none, List.filter_nil, List.nil_append]
      exact convertLoop_spec fuel (idx + 1) n _ cells (by omega) (by omega)
    | some s =>
      simp only [Option.toList_some]
      by_cases hs : s.id = 0 ∨ s.trace = 0
      · have hf : [s].filter (fun c => decide (c.id ≠ 0 ∧ c.trace ≠ 0)) = [] := by
          rw [List.filter_eq_nil_iff]
          intro a ha
          rw [List.mem_singleton] at ha; subst ha
          simp only [ne_eq, decide_eq_true_eq]
          rintro ⟨h1, h2⟩
          exact hs.elim h1 h2
        rw [if_pos hs, hf, List.nil_append]
        exact convertLoop_spec fuel (idx + 1) n _ cells (by omega) (by omega)
      · have hf : [s].filter (fun c => decide (c.id ≠ 0 ∧ c.trace ≠ 0)) = [s] := by
          rw [List.filter_eq_self]
          intro a ha
          rw [List.mem_singleton] at ha; subst ha
          rw [not_or] at hs
          exact decide_eq_true hs
        rw [if_neg hs, hf]
        obtain ⟨h1, h2, h3⟩ := convertLoop_spec fuel (idx + 1) (n + 1) (conv k cells[idx]).2 (cells.set n s) (by omega) (by rw [List.length_set]; omega)
        have hd : (cells.set n s).drop (idx + 1) = cells.drop (idx + 1) := List.drop_set_of_lt (by omega)
        have ht : (cells.set n s).take (n + 1) = cells.take n ++ [s] := by
          rw [List.take_add_one, List.take_set_of_le (Nat.le_refl _), List.getElem?_set_self (by omega)]
          rfl
        rw [hd] at h1 h2
        rw [ht] at h2
        rw [List.length_set] at h3
        refine ⟨h1, ?_, h3⟩
        rw [h2]; simp

/-- The state of the converter after these traces. -/
def convAfter (conv : κ → Span → Option Span × κ) (k : κ) (l : List (List Span)) : κ := l.foldl (fun k t => (convertAll conv k t).2) k

theorem convertTraces_append (k : κ) (l l' : List (List Span)) :
    convertTraces conv k (l ++ l') = convertTraces conv k l ++ convertTraces conv (convAfter conv k l) l' := by
  induction l generalizing k with
  | nil => rfl
  | cons t l ih => simp only [List.cons_append, convertTraces, ih]; rfl

theorem convertTraces_length (k : κ) (l : List (List Span)) : (convertTraces conv k l).length = l.length := by
  induction l generalizing k with
  | nil => rfl
  | cons t l ih => simp only [convertTraces, List.length_cons, ih]

/-- References to whole arrays at successive addresses. -/
def refsFrom : Nat → List (List Span) → List SliceRef
  | _, [] => []
  | a, t :: l => { addr := a, len := t.length } :: refsFrom (a + 1) l

theorem refsFrom_snoc (a : Nat) (l : List (List Span)) (t : List Span) : refsFrom a (l ++ [t]) = refsFrom a l ++ [{ addr := a + l.length, len := t.length }] := by
  induction l generalizing a with
  | nil => rfl
  | cons x l ih =>
    simp only [List.cons_append, refsFrom, ih, List.length_cons]
    rw [show a + 1 + l.length = a + (l.length + 1) by omega]

/-- How much target `j` got, out of the slices that were made. -/
def sentTo (sending : Option (SliceRef × Nat)) (j total : Nat) : Nat :=
  match sending with
  | none => total
  | some (_, i) => if j < i then total else total - 1

structure ForwardInv (conv : κ → Span → Option Span × κ) (k : κ) (n : Nat) (done waiting : List (List Span)) (front : SpanHeap) (results : List SliceRef) (f : Forwarder κ) :
    Prop where
  heap : f.heap = front ++ waiting
  frontLen : front.length = done.length
  addrs : results.map (·.addr) = List.range done.length
  reads : results.map f.heap.read = convertTraces conv k done
  state : f.conv = convAfter conv k done
  source : f.source = refsFrom done.length waiting
  queuesLen : f.queues.length = n
  takenLen : f.taken.length = n
  sending : ∀ r i, f.sending = some (r, i) → i ≤ n ∧ results.getLast? = some r
  got : ∀ j, j < n → f.taken.getD j [] ++ f.queues.getD j [] = results.take (sentTo f.sending j results.length)

theorem read_append_left {h h' : SpanHeap} {r : SliceRef} (hr : r.addr < h.length) : SpanHeap.read (h ++ h') r = SpanHeap.read h r := by
  unfold SpanHeap.read
  rw [List.getD_eq_getElem?_getD, List.getD_eq_getElem?_getD, List.getElem?_append_left hr]

theorem map_read_congr {results : List SliceRef} {h h' : SpanHeap} {m : Nat} (ha : results.map (·.addr) = List.range m)
    (hh : ∀ r : SliceRef, r.addr < m → h'.read r = h.read r) : results.map h'.read = results.map h.read := by
  apply List.map_congr_left
  intro r hr
  apply hh
  have : r.addr ∈ results.map (·.addr) := List.mem_map_of_mem hr
  rw [ha] at this
  exact List.mem_range.mp this

theorem getD_set_self {α} {l : List α} {i : Nat} {a d : α} (h : i < l.length) : (l.set i a).getD i d = a := by
  rw [List.getD_eq_getElem?_getD, List.getElem?_set_self h]; rfl

theorem getD_set_ne {α} {l : List α} {i j : Nat} {a d : α} (h : i ≠ j) : (l.set i a).getD j d = l.getD j d := by
  rw [List.getD_eq_getElem?_getD, List.getD_eq_getElem?_getD, List.getElem?_set_ne h]

theorem getD_of_getElem? {α} {l : List α} {i : Nat} {a d : α} (h : l[i]? = some a) : l.getD i d = a := by
  rw [List.getD_eq_getElem?_getD, h]; rfl

theorem Forwarder.Reachable.inv {caps : List Nat} {k : κ} {n : Nat} {arrived : List (List Span)} {f : Forwarder κ} (h : Forwarder.Reachable conv caps k n arrived f) :
    ∃ done waiting front results, arrived = done ++ waiting ∧ ForwardInv conv k n done waiting front results f := by
  induction h with
  | init =>
    refine ⟨[], [], [], [], rfl, ⟨rfl, rfl, rfl, rfl, rfl, rfl, by simp [Forwarder.init], by simp [Forwarder.init], ?_, ?_⟩⟩
    · intro r i h; cases h
    · intro j hj
      simp [Forwarder.init, List.getD_eq_getElem?_getD, hj]
  | @arrive arrived f cells _ ih =>
    obtain ⟨done, waiting, front, results, h0, inv⟩ := ih
    refine ⟨done, waiting ++ [cells], front, results, by rw [h0, List.append_assoc], ?_⟩
    have hheap : (f.arrive cells).heap = f.heap ++ [cells] := rfl
    constructor
    · rw [hheap, inv.heap, List.append_assoc]
    · exact inv.frontLen
    · exact inv.addrs
    · rw [← inv.reads]
      refine map_read_congr inv.addrs fun r hr => ?_
      rw [hheap]
      refine read_append_left ?_
      rw [inv.heap, List.length_append, inv.frontLen]; omega
    · exact inv.state
    · show f.source ++ [_] = _
      rw [refsFrom_snoc, inv.source, inv.heap, List.length_append, inv.frontLen]
    · exact inv.queuesLen
    · exact inv.takenLen
    · exact inv.sending
    · exact inv.got
  | @step arrived f f' _ hs ih =>
    obtain ⟨done, waiting, front, results, h0, inv⟩ := ih
    have hlen : results.length = done.length := by
      have := congrArg List.length inv.addrs; simpa using this
    rcases hs with hs | hs
    · cases hs with
      | @take trace rest hsrc hsend =>
        cases waiting with
        | nil => rw [inv.source] at hsrc; cases hsrc
        | cons t waiting =>
          rw [inv.source] at hsrc
          simp only [refsFrom, List.cons.injEq] at hsrc
          obtain ⟨rfl, rfl⟩ := hsrc
          have hcell : f.heap.getD done.length [] = t := by
            rw [inv.heap, ← inv.frontLen, List.getD_eq_getElem?_getD, List.getElem?_append_right (Nat.le_refl _)]
            simp
          obtain ⟨h1, h2, h3⟩ := convertLoop_spec (conv := conv) t.length 0 0 f.conv t (Nat.le_refl _) (by omega)
          have hset : ∀ c, f.heap.set done.length c = front ++ [c] ++ waiting := by
            intro c
            rw [inv.heap, ← inv.frontLen, List.set_append_right _ _ (Nat.le_refl _)]
            simp
          simp only [List.drop_zero, List.take_zero, List.nil_append] at h1 h2
          dsimp only [convertTrace]
          rw [hcell]
          refine ⟨done ++ [t], waiting, front ++ [(convertLoop conv t.length 0 0 f.conv t).2.2],
            results ++ [{ addr := done.length, len := (convertLoop conv t.length 0 0 f.conv t).1 }], by rw [h0, List.append_assoc]; rfl, ?_⟩
          constructor
          · exact hset _
          · simp [inv.frontLen]
          · rw [List.map_append, inv.addrs, List.length_append, List.length_singleton, List.range_succ]; rfl
          · dsimp only
            rw [hset, List.map_append, convertTraces_append, ← inv.reads, ← inv.state]
            congr 1
            · refine map_read_congr inv.addrs fun r hr => ?_
              have hr' : r.addr < front.length := by rw [inv.frontLen]; exact hr
              rw [List.append_assoc, read_append_left hr', inv.heap, read_append_left hr']
            · simp only [List.map_cons, List.map_nil, convertTraces]
              congr 1
              rw [← h2]
              unfold SpanHeap.read
              rw [List.append_assoc, List.getD_eq_getElem?_getD, List.getElem?_append_right (by rw [inv.frontLen]; exact Nat.le_refl _), inv.frontLen]
              simp
          · show _ = convAfter conv k (done ++ [t])
            unfold convAfter
            rw [List.foldl_append]
            show _ = (convertAll conv (convAfter conv k done) t).2
            rw [← inv.state]
            exact h1
          · show refsFrom (done.length + 1) waiting = _
            rw [List.length_append, List.length_singleton]
          · exact inv.queuesLen
          · exact inv.takenLen
          · intro r i h
            simp only [Option.some.injEq, Prod.mk.injEq] at h
            obtain ⟨rfl, rfl⟩ := h
            exact ⟨Nat.zero_le _, by simp⟩
          · intro j hj
            show f.taken.getD j [] ++ f.queues.getD j [] = _
            rw [inv.got j hj, hsend]
            simp [sentTo]
      | @send r i q hsend hq hcap =>
        obtain ⟨hi, hlast⟩ := inv.sending r i hsend
        have hin : i < n := by
          rw [← inv.queuesLen]
          exact (List.getElem?_eq_some_iff.mp hq).1
        refine ⟨done, waiting, front, results, h0, ⟨inv.heap, inv.frontLen, inv.addrs, inv.reads, inv.state, inv.source, ?_, inv.takenLen, ?_, ?_⟩⟩
        · simp [inv.queuesLen]
        · intro r' i' h
          simp only [Option.some.injEq, Prod.mk.injEq] at h
          obtain ⟨rfl, rfl⟩ := h
          exact ⟨hin, hlast⟩
        · intro j hj
          have hg := inv.got j hj
          rw [hsend] at hg
          by_cases hji : i = j
          · subst hji
            rw [getD_set_self (by rw [inv.queuesLen]; exact hin), ← List.append_assoc]
            rw [getD_of_getElem? hq] at hg
            rw [hg]
            simp only [sentTo, Nat.lt_irrefl, if_false, Nat.lt_succ_self, if_true, List.take_length]
            obtain ⟨pre, rfl⟩ := List.getLast?_eq_some_iff.mp hlast
            simp
          · rw [getD_set_ne hji, hg]
            simp only [sentTo]
            by_cases hlt : j < i
            · rw [if_pos hlt, if_pos (by omega)]
            · rw [if_neg hlt, if_neg (by omega)]
      | @finish r hsend =>
        refine ⟨done, waiting, front, results, h0, ⟨inv.heap, inv.frontLen, inv.addrs, inv.reads, inv.state, inv.source, inv.queuesLen, inv.takenLen, ?_, ?_⟩⟩
        · intro r' i' h; cases h
        · intro j hj
          have hg := inv.got j hj
          rw [hsend] at hg
          simp only [sentTo] at hg ⊢
          rwa [if_pos (by rw [inv.queuesLen]; exact hj)] at hg
    · rename_i i r
      cases hs with
      | @mk q l hq hl =>
        have hin : i < n := by
          rw [← inv.queuesLen]
          exact (List.getElem?_eq_some_iff.mp hq).1
        refine ⟨done, waiting, front, results, h0, ⟨inv.heap, inv.frontLen, inv.addrs, inv.reads, inv.state, inv.source, by simp [inv.queuesLen], by simp [inv.takenLen],
          inv.sending, ?_⟩⟩
        intro j hj
        have hg := inv.got j hj
        show (f.taken.set i (l ++ [r])).getD j [] ++ (f.queues.set i q).getD j [] = _
        by_cases hji : i = j
        · subst hji
          rw [getD_set_self (by rw [inv.takenLen]; exact hin), getD_set_self (by rw [inv.queuesLen]; exact hin), List.append_assoc]
          rw [getD_of_getElem? hq, getD_of_getElem? hl] at hg
          exact hg
        · rw [getD_set_ne hji, getD_set_ne hji]
          exact hg

/-- Bounds the number of steps without new traces. -/
def Forwarder.work (f : Forwarder κ) : Nat :=
  f.source.length * (2 * f.queues.length + 2) + (match f.sending with | none => 0 | some (_, i) => 1 + 2 * (f.queues.length - i)) + (f.queues.map List.length).sum

theorem sum_lengths_set {α} : ∀ {l : List (List α)} {i : Nat} {q q' : List α}, l[i]? = some q →
    ((l.set i q').map List.length).sum + q.length = (l.map List.length).sum + q'.length
  | [], _, _, _, h => by simp at h
  | x :: l, 0, q, q', h => by
    simp at h; subst h
    simp; omega
  | x :: l, i + 1, q, q', h => by
    have := sum_lengths_set (q' := q') (l := l) (i := i) (q := q) (by simpa using h)
    simp only [List.set_cons_succ, List.map_cons, List.sum_cons]
    omega

theorem Forwarder.Own.work_lt {caps : List Nat} {f f' : Forwarder κ} (h : f.Own conv caps f') : f'.work < f.work := by
  cases h with
  | @take trace rest hsrc hsend =>
    simp only [Forwarder.work, hsrc, hsend, List.length_cons, Nat.add_mul]
    omega
  | @send r i q hsend hq hcap =>
    have hin := (List.getElem?_eq_some_iff.mp hq).1
    have := sum_lengths_set (q' := q ++ [r]) hq
    simp only [Forwarder.work, hsend, List.length_set]
    simp only [List.length_append, List.length_singleton] at this
    omega
  | finish hsend =>
    simp only [Forwarder.work, hsend]
    omega

theorem Forwarder.Receive.work_lt {i : Nat} {r : SliceRef} {f f' : Forwarder κ} (h : f.Receive i r f') : f'.work < f.work := by
  cases h with
  | @mk q l hq hl =>
    have := sum_lengths_set (q' := q) hq
    simp only [Forwarder.work, List.length_set]
    simp only [List.length_cons] at this
    omega

theorem Forwarder.Step.work_lt {caps : List Nat} {f f' : Forwarder κ} (h : f.Step conv caps f') : f'.work < f.work := by
  rcases h with h | h
  · exact h.work_lt
  · exact h.work_lt

/-- Where the converted spans come from. -/
theorem convertAll_mem {k : κ} {l : List Span} {s : Span} (h : s ∈ (convertAll conv k l).1) :
    s.id ≠ 0 ∧ s.trace ≠ 0 ∧ ∃ m ∈ l, ∃ k', (conv k' m).1 = some s := by
  induction l generalizing k with
  | nil => cases h
  | cons m l ih =>
    simp only [convertAll, List.mem_append, List.mem_filter, Option.mem_toList, decide_eq_true_eq] at h
    rcases h with ⟨h1, h2⟩ | h
    · exact ⟨h2.1, h2.2, m, List.mem_cons_self, k, h1⟩
    · obtain ⟨h1, h2, m', hm, k', hk⟩ := ih h
      exact ⟨h1, h2, m', List.mem_cons_of_mem _ hm, k', hk⟩

theorem convertTraces_mem {k : κ} {l : List (List Span)} {t : List Span} {s : Span} (h : t ∈ convertTraces conv k l) (hs : s ∈ t) :
    s.id ≠ 0 ∧ s.trace ≠ 0 ∧ ∃ m ∈ l.flatten, ∃ k', (conv k' m).1 = some s := by
  induction l generalizing k with
  | nil => cases h
  | cons m l ih =>
    rcases List.mem_cons.mp h with rfl | h
    · obtain ⟨h1, h2, m', hm, k', hk⟩ := convertAll_mem hs
      exact ⟨h1, h2, m', List.mem_append_left _ hm, k', hk⟩
    · obtain ⟨h1, h2, m', hm, k', hk⟩ := ih h
      exact ⟨h1, h2, m', List.mem_append_right _ hm, k', hk⟩

end Verif
