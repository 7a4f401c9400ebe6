import Verif.Proofs.Later
import Verif.Props.Formats

/-!
# C162: a clock of the proxy that is wrong
-/

namespace Verif

open Spec Std

/-- C162: if all readings of the clock of the proxy are later or earlier by the same time, the same traces leave the collector with the same spans for the same reasons in the same order; the same spans are refused, and the meters
show the same. -/
theorem C162_clock (d : Time) {start : Time} {l : List Happening} {w : World} (hw : After start l w) :
    ∃ w', After (start + d) (l.map (Happening.later d)) w' ∧
      w'.removed.map (fun r => (r.id, r.fate)) = w.removed.map (fun r => (r.id, r.fate)) ∧ w'.refused = w.refused ∧
      w'.c.metrics = w.c.metrics ∧ w'.c.blacklist = w.c.blacklist ∧
      ∀ k : Id, (w'.c.traces[k]?).map (·.spans) = (w.c.traces[k]?).map (·.spans) := by
  refine ⟨w.later d, after_later d hw, ?_, rfl, rfl, rfl, fun k => ?_⟩
  · show (w.removed.map (Removal.later d)).map _ = _
    rw [List.map_map]; rfl
  · show ((laterMap d w.c.traces)[k]?).map _ = _
    rw [laterMap_get, Option.map_map]; rfl

/-- C162: so exactly the same traces are sent. -/
theorem C162_sent (d : Time) {start : Time} {l : List Happening} {w : World} (hw : After start l w) :
    ∃ w', After (start + d) (l.map (Happening.later d)) w' ∧ emittedOf w'.removed = emittedOf w.removed := by
  obtain ⟨w', h1, h2, _⟩ := C162_clock d hw
  refine ⟨w', h1, ?_⟩
  have e : ∀ l : List Removal, emittedOf l = (l.map fun r => (r.id, r.fate)).filterMap fun p => match p.2 with
      | .emitted spans => some spans
      | _ => none := by
    intro l
    rw [List.filterMap_map]; rfl
  rw [e, e, h2]

/-- C162: conversely, whatever a proxy with a wrong clock sends, one with the right clock could have sent, so no trace is sent or lost only because the clock is wrong. -/
theorem C162_iff (d : Time) {start : Time} {l : List Happening} {sent : List (List Span)} :
    (∃ w, After start l w ∧ emittedOf w.removed = sent) ↔ ∃ w, After (start + d) (l.map (Happening.later d)) w ∧ emittedOf w.removed = sent := by
  constructor
  · rintro ⟨w, hw, rfl⟩
    exact C162_sent d hw
  · rintro ⟨w, hw, rfl⟩
    obtain ⟨w', h1, h2⟩ := C162_sent (-d) hw
    refine ⟨w', ?_, h2⟩
    have e1 : start + d + -d = start := by unfold Time at *; omega
    have e2 : ∀ h : Happening, (h.later d).later (-d) = h := by
      intro h
      have z : ∀ t : Time, t + d + -d = t := by intro t; unfold Time at *; omega
      cases h with
      | receive a b s => simp only [Happening.later, z]
      | tick a b n => simp only [Happening.later, z]
    rw [e1, List.map_map] at h1
    have e3 : l.map (Happening.later (-d) ∘ Happening.later d) = l := by
      have : (Happening.later (-d) ∘ Happening.later d) = id := by funext h; exact e2 h
      rw [this, List.map_id]
    rwa [e3] at h1

/-- C162: what is sent if two spans are received when the clock shows `start`, at a tick when it shows `wait` more. -/
def lateWorld (start wait : Time) : List (List (Id × Timestamp)) :=
  let w : World := { clock := start }
  let w := w.receive start start { id := 5, trace := 5, parent := 0, timestamp := 1600000000000000000, duration := 2000 }
  let w := w.receive (start + 1) (start + 1) { id := 7, trace := 5, parent := 5, timestamp := 1600000000000000100, duration := 1000 }
  (emittedOf (w.tick { now1 := start + wait, now2 := start + wait, nowFake := fun _ => 0, order := w.c.traces.toList, sorted := [], blOrder := [] }).removed).map
    fun t => t.map fun s => (s.id, s.timestamp)

/-- C162: the trace is sent by both after nine seconds, and by none of them after seven: differences of readings do matter. -/
theorem C162_witness :
    lateWorld 0 9000000000 = [[(7, 1600000000000000100), (5, 1600000000000000000)]] ∧
    lateWorld 1700000000000000000 9000000000 = [[(7, 1600000000000000100), (5, 1600000000000000000)]] ∧
    lateWorld 0 7000000000 = [] ∧ lateWorld 1700000000000000000 7000000000 = [] := by
  decide +kernel

end Verif
