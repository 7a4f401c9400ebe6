import Verif.Proofs.Forward

/-!
# The forwarder: C55
-/

namespace Verif

variable {κ : Type} {conv : κ → Span → Option Span × κ} {caps : List Nat} {k : κ} {n : Nat} {arrived : List (List Span)} {f : Forwarder κ}

/-- C55: at all times every target got, in order, the converted traces without the spans that were not converted or have no id or trace; one after
the other: of the `t` traces taken so far it got all, or, while the last one is being sent, all but the last. The slices that were given to
the targets before keep their contents, although the forwarder writes into the arrays of traces. -/
theorem C55_delivers (h : Forwarder.Reachable conv caps k n arrived f) :
    f.source.length ≤ arrived.length ∧ ∀ i, i < n →
      f.delivered i = (convertTraces conv k arrived).take (arrived.length - f.source.length) ∨
      f.sending ≠ none ∧ f.delivered i = (convertTraces conv k arrived).take (arrived.length - f.source.length - 1) := by
  obtain ⟨done, waiting, front, results, h0, inv⟩ := h.inv
  have hrefs : ∀ (a : Nat) (l : List (List Span)), (refsFrom a l).length = l.length := by
    intro a l
    induction l generalizing a with
    | nil => rfl
    | cons t l ih => simp [refsFrom, ih]
  have hlen : results.length = done.length := by
    have := congrArg List.length inv.addrs; simpa using this
  have hsrc : f.source.length = waiting.length := by rw [inv.source, hrefs]
  have htot : arrived.length - f.source.length = done.length := by
    rw [h0, hsrc]; simp
  refine ⟨by rw [h0, hsrc]; simp, fun i hi => ?_⟩
  have hd : ∀ m, m ≤ done.length → f.taken.getD i [] ++ f.queues.getD i [] = results.take m → f.delivered i = (convertTraces conv k arrived).take m := by
    intro m hm hg
    unfold Forwarder.delivered
    rw [hg, List.map_take, inv.reads, h0, convertTraces_append, List.take_append_of_le_length]
    rw [convertTraces_length]; exact hm
  have hg := inv.got i hi
  rw [htot]
  rw [hlen] at hg
  cases hsend : f.sending with
  | none =>
    rw [hsend] at hg
    exact .inl (hd _ (Nat.le_refl _) hg)
  | some p =>
    rw [hsend] at hg
    simp only [sentTo] at hg
    by_cases hip : i < p.2
    · rw [if_pos hip] at hg
      exact .inl (hd _ (Nat.le_refl _) hg)
    · rw [if_neg hip] at hg
      exact .inr ⟨by simp, hd _ (by omega) hg⟩

/-- C55: when nothing is left to do, every target took all converted traces out of its channel. -/
theorem C55_complete (h : Forwarder.Reachable conv caps k n arrived f) (hidle : f.Idle) :
    ∀ i, i < n → (f.taken.getD i []).map f.heap.read = convertTraces conv k arrived := by
  intro i hi
  obtain ⟨h1, h2⟩ := C55_delivers h
  obtain ⟨done, waiting, front, results, h0, inv⟩ := h.inv
  have hq : f.queues.getD i [] = [] := by
    refine hidle.2.2 _ ?_
    rw [List.getD_eq_getElem?_getD, List.getElem?_eq_getElem (by rw [inv.queuesLen]; exact hi)]
    exact List.getElem_mem _
  rcases h2 i hi with h2 | ⟨h2, _⟩
  · unfold Forwarder.delivered at h2
    rw [hq, List.append_nil, hidle.1] at h2
    rw [h2, List.take_of_length_le]
    rw [convertTraces_length]; simp
  · exact absurd hidle.2.1 h2

/-- C55: it never gets stuck (the channels have some capacity), … -/
theorem C55_progress (h : Forwarder.Reachable conv caps k n arrived f) (hcaps : ∀ i, i < n → 0 < caps.getD i 0) (hidle : ¬ f.Idle) : ∃ f', f.Step conv caps f' := by
  obtain ⟨done, waiting, front, results, h0, inv⟩ := h.inv
  by_cases hq : ∀ q ∈ f.queues, q = []
  · cases hs : f.sending with
    | none =>
      cases hsrc : f.source with
      | nil => exact absurd ⟨hsrc, hs, hq⟩ hidle
      | cons t l => exact ⟨_, .own (.take f hsrc hs)⟩
    | some p =>
      obtain ⟨hi, _⟩ := inv.sending p.1 p.2 hs
      by_cases hlt : p.2 < n
      · have hp : p.2 < f.queues.length := by rw [inv.queuesLen]; exact hlt
        have hq' := hq _ (List.getElem_mem hp)
        refine ⟨_, .own (.send f (q := []) hs (by rw [List.getElem?_eq_getElem hp, hq']) ?_)⟩
        exact hcaps _ hlt
      · exact ⟨_, .own (.finish f (r := p.1) (by rw [hs, inv.queuesLen, ← show p.2 = n by omega]))⟩
  · have : ∃ q ∈ f.queues, q ≠ [] := by
      refine Classical.byContradiction fun hn => hq fun q hqm => Classical.byContradiction fun hqn => hn ⟨q, hqm, hqn⟩
    obtain ⟨q, hqm, hqn⟩ := this
    obtain ⟨i, hi, rfl⟩ := List.mem_iff_getElem.mp hqm
    obtain ⟨r, q, hrq⟩ := List.exists_cons_of_ne_nil hqn
    have hti : i < f.taken.length := by rw [inv.takenLen, ← inv.queuesLen]; exact hi
    exact ⟨_, .receive (.mk (i := i) (r := r) f (q := q) (l := f.taken[i]) (by rw [List.getElem?_eq_getElem hi, hrq]) (List.getElem?_eq_getElem hti))⟩

/-- … and without new traces it is done after finitely many steps. -/
theorem C55_terminates {f f' : Forwarder κ} (h : f.Step conv caps f') : f'.work < f.work := h.work_lt

/-- C55: what the targets get has ids and is the result of converting some span of a trace. -/
theorem C55_sound (h : Forwarder.Reachable conv caps k n arrived f) {i : Nat} (hi : i < n) {t : List Span} (ht : t ∈ f.delivered i) {s : Span} (hs : s ∈ t) :
    s.id ≠ 0 ∧ s.trace ≠ 0 ∧ ∃ m ∈ arrived.flatten, ∃ k', (conv k' m).1 = some s := by
  refine convertTraces_mem (l := arrived) (k := k) ?_ hs
  rcases (C55_delivers h).2 i hi with h | ⟨_, h⟩ <;> rw [h] at ht <;> exact List.mem_of_mem_take ht

/-- A converter with a state: it renames every second span, fails on spans without name, and forgets the id of spans named "x". -/
def exampleConverter (k : Nat) (s : Span) : Option Span × Nat :=
  (if s.name = [] then none else if s.name = b!"x" then some { s with id := 0 } else if k % 2 = 0 then some { s with name := b!"even" } else some s, k + 1)

theorem C55_witness : ∃ f : Forwarder Nat, Forwarder.Reachable exampleConverter [1, 1] 0 2
      [[{ id := 1, trace := 1 }, { id := 2, trace := 1, name := b!"b" }, { id := 3, trace := 1, name := b!"x" }, { id := 4, trace := 1, name := b!"c" },
        { id := 5, trace := 1, name := b!"d" }]] f ∧
    f.sending ≠ none ∧ (f.delivered 0).map (·.map fun s => (s.id, s.name)) = [[(2, b!"b"), (4, b!"c"), (5, b!"even")]] ∧ f.delivered 1 = [] :=
  ⟨_, .step (.step (.arrive _ .init) (.own (.take _ rfl rfl))) (.own (.send _ rfl rfl (by decide))), by decide, by decide +kernel, rfl⟩

end Verif
