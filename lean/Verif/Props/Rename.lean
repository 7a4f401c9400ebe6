import Verif.Proofs.Rename
import Verif.Props.Formats

/-!
# C160: the ids of traces and spans are only names
-/

namespace Verif

open Spec Std

/-- C160: with other ids for traces and spans (different ones remain different, 0 remains 0, and a span whose id is the one of the trace remains such a span), the same traces leave the collector
at the same time for the same reasons, and of those that are sent the spans are the same, up to the ids and the order in which they are listed. -/
theorem C160_renamed (n : Renaming) {start : Time} {l l' : List Happening} (h : Pairwise₂ (RenamedHappening n) l l') {w : World} (hw : After start l w) :
    ∃ w', After start l' w' ∧ RenamedWorld n w w' := by
  obtain ⟨w', h1, h2⟩ := ren_after hw h
  exact ⟨w', h1, h2.renamed⟩

/-- C160: so as many traces are sent, in the same order, each with the same spans. -/
theorem C160_sent (n : Renaming) {w w' : World} (h : RenamedWorld n w w') :
    Pairwise₂ (fun t t' => t'.Perm (t.map n.apply)) (emittedOf w.removed) (emittedOf w'.removed) := by
  have := h.removed
  revert this
  generalize w.removed = l
  generalize w'.removed = l'
  intro hp
  induction hp with
  | nil => exact .nil
  | @cons r r' l l' hr _ ih =>
    obtain ⟨k, t, f⟩ := r
    obtain ⟨k', t', f'⟩ := r'
    have hf := hr.fate
    dsimp only at hf
    unfold emittedOf at ih ⊢
    rw [List.filterMap_cons, List.filterMap_cons]
    cases hf with
    | emitted hp => exact .cons hp ih
    | _ => exact ih

/-- Every id is replaced by its negation, so that larger ids become smaller ones. -/
def negated : Renaming where
  trace a := -a
  span _ a := -a
  traces h := Int64.neg_inj.mp h
  spans h := Int64.neg_inj.mp h
  noTrace := by decide
  noSpan _ := by decide
  root _ := rfl

open FormatWitness in
/-- C160: a call that is known from both sides, one below it, and another call, all below a span that is missing. With negated ids the spans are sent in the opposite order, but
they are the same. -/
theorem C160_witness :
    let l : List Span :=
      [{ id := 7, trace := 5, parent := 3, timestamp := 1600000000000000000, duration := 1000, timings := { CS := 1600000000000000000, CR := 1600000000000001000 } },
       { id := 7, trace := 5, parent := 3, timestamp := 1600000000000300400, duration := 200, timings := { SR := 1600000000000300400, SS := 1600000000000300600 } },
       { id := 8, trace := 5, parent := 7, timestamp := 1600000000000300500, duration := 10 },
       { id := 4, trace := 5, parent := 3, timestamp := 1600000000000000300, duration := 900 }]
    (emittedOf ((world l).c.tick (input l)).2).map (fun t => t.map fun s => (s.id, s.parent, s.timestamp, s.duration)) =
      [[(8, 7, 1600000000000000500, 10), (7, 3, 1600000000000000000, 1000), (4, 3, 1600000000000000300, 900), (3, 5, 1600000000000000000, 1200)]] ∧
    (emittedOf ((world (l.map negated.apply)).c.tick (input (l.map negated.apply))).2).map (fun t => t.map fun s => (s.id, s.parent, s.timestamp, s.duration)) =
      [[(-3, -5, 1600000000000000000, 1200), (-4, -3, 1600000000000000300, 900), (-7, -3, 1600000000000000000, 1000), (-8, -7, 1600000000000000500, 10)]] := by
  decide +kernel

open FormatWitness in
/-- C160: that the id of the trace is used for a span does matter: of two spans below one that is missing nothing is sent if one of them has the id of the trace, otherwise they are (see C38). -/
theorem C160_needs_root :
    let l (id : Id) : List Span :=
      [{ id := id, trace := 5, parent := 3, timestamp := 1600000000000000000, duration := 1000 },
       { id := 4, trace := 5, parent := 3, timestamp := 1600000000000000300, duration := 900 }]
    ((emittedOf ((world (l 5)).c.tick (input (l 5))).2).map fun t => t.map fun s => s.id) = [] ∧
    ((emittedOf ((world (l 6)).c.tick (input (l 6))).2).map fun t => t.map fun s => s.id) = [[6, 4, 3]] := by
  decide +kernel

end Verif
