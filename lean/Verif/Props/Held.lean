import Verif.Proofs.Held
import Verif.Props.Account

/-!
# C115: the proxy holds a bounded number of spans, however slow its targets are
-/

namespace Verif

variable {κ : Type} {conv : κ → Span → Option Span × κ} {k : κ} {outcomes : List Parsed} {s : System κ}

/-- C115: outside the collector there are at most 4829778 spans, at any time. -/
theorem C115_way (h : System.Reachable conv k outcomes s) (hf : s.world.Fits) : s.onTheWay ≤ 4829778 := onTheWay_le h hf

/-- C115: every run has marks: the number of spans received until the last tick of the collector, and until the one before. -/
theorem C115_marks : (∃ outcomes, System.Reachable conv k outcomes s) ↔ ∃ a b, System.Marks conv k a b s :=
  ⟨fun ⟨_, h⟩ => h.marks, fun ⟨_, _, h⟩ => h.reachable⟩

/-- C115: in all, these are at most 5129778 spans, and those received since the last tick, and twice those received between the last two ticks. -/
theorem C115_held {a b : Nat} (h : System.Marks conv k a b s) (hf : s.world.Fits) :
    a ≤ b ∧ b ≤ s.world.received.length ∧ s.collected ≤ 100000 + (s.world.received.length - b) ∧ s.leaving ≤ 200000 + 2 * (b - a) ∧
    s.onTheWay + s.collected + s.leaving ≤ 5129778 + (s.world.received.length - b) + 2 * (b - a) := by
  obtain ⟨_, hr⟩ := h.reachable
  have h1 := onTheWay_le hr hf
  obtain ⟨h2, h3, h4, h5⟩ := h.held hf
  exact ⟨h2, h3, h4, by omega, by omega⟩

theorem tree_le_members {t : Tree} (h : t.Inv) : t.spans.length ≤ t.members.length := by
  have h1 : (t.spans.map Span.id).Nodup := sortedDesc_ids h.sorted
  have h2 : ∀ i ∈ t.spans.map Span.id, i ∈ t.members.map Span.id := by
    intro i hi
    obtain ⟨x, hx, e⟩ := List.mem_map.mp hi
    obtain ⟨m, hm, he⟩ := (h.ids i).mp ⟨x, hx, e⟩
    exact List.mem_map.mpr ⟨m, hm, he⟩
  have := List.Nodup.length_le_of_subset h1 h2
  simpa using this

/-- C115: the condition holds if fewer than 65536 spans were received for every trace. -/
theorem C115_fits {w : World} (hw : Reachable w) (h : ∀ id, (receivedFor id w.received).length < 65536) : w.Fits := by
  have inv := reachable_inv hw
  refine ⟨fun id t ht => ?_, fun r hr => ?_⟩
  · have h1 := tree_le_members (inv.trees id t ht).inv
    have h2 := (inv.suffix id t ht).length_le
    have := h id
    omega
  · have h1 := tree_le_members (inv.gone r hr).inv
    have h2 := (inv.infix_ r hr).length_le
    have := h r.id
    omega

/-- C115: without it there is no bound: right after a tick, there may be any number of spans in the collector. -/
theorem C115_needed (conv : κ → Span → Option Span × κ) (k : κ) (n : Nat) (hn : n + 1 < 2 ^ 47) : ∃ a b, ∃ s : System κ, System.Marks conv k a b s ∧ s.world.received.length = b ∧ n ≤ s.collected := by
  obtain ⟨w, hw, i, hv, hc, hl⟩ := wrapped_stays ((n + 1) * 65536) (by omega) (by omega) (by omega)
  obtain ⟨outcomes, s, hr, hp, _, rfl⟩ := C92_adequate conv k hw
  have ho : s.outbox = [] := Classical.byContradiction fun h => hp (Or.inr (Or.inr (Or.inl h)))
  obtain ⟨a, b, hm⟩ := hr.marks
  refine ⟨b, _, _, .tick i hm ho hv hc, rfl, ?_⟩
  exact Nat.le_trans (by omega) hl

/-- A state that meets the conditions of C115, with a span in the collector. -/
example (conv : κ → Span → Option Span × κ) (k : κ) : ∃ a b, ∃ s : System κ, System.Marks conv k a b s ∧ s.world.Fits ∧ s.collected = 1 := by
  have hw : Reachable (World.receive { clock := 0 } 1 1 { id := 7, trace := 5 }) := .receive 1 1 _ (.init 0) (by decide) (by decide)
  obtain ⟨outcomes, s, hr, _, _, e⟩ := C92_adequate conv k hw
  obtain ⟨a, b, hm⟩ := hr.marks
  refine ⟨a, b, s, hm, ?_, ?_⟩
  · rw [e]
    refine C115_fits hw fun id => Nat.lt_of_le_of_lt (List.length_filter_le ..) (by decide : 1 < 65536)
  · unfold System.collected
    rw [e]
    decide +kernel

end Verif
