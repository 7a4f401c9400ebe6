import Verif.Proofs.Shift
import Verif.Props.Formats

/-!
# C121: a trace at another time is shown at this other time
-/

namespace Verif

open Spec Std

/-- The relation of what is sent, for traces of the collector. -/
def shownOk (k : Id) (d lo hi : Int) (trace : Id) (t : Tree) (s s' : Span) : Prop :=
  if trace = k then SameTo clockless s s' ∧ (t.Ok → Room t.spans.length lo hi → Room t.spans.length (lo + d) (hi + d) → ShownLater d s s') else s = s'

theorem sameFate_mono {S S' : Span → Span → Prop} {f f' : Fate} (h : SameFate S f f') (hs : ∀ a b, S a b → S' a b) : SameFate S' f f' := by
  cases h with
  | emitted h => exact .emitted (h.mono hs)
  | _ => constructor

theorem sameFate_both {S S' : Span → Span → Prop} {f f' : Fate} (h : SameFate S f f') (h' : SameFate S' f f') : SameFate (fun a b => S a b ∧ S' a b) f f' := by
  cases h with
  | emitted h => cases h' with
    | emitted h' => exact .emitted (h.both h')
  | _ => constructor

theorem sameFate_rfl {S : Span → Span → Prop} (hs : ∀ a, S a a) (f : Fate) : SameFate S f f := by
  cases f with
  | emitted l =>
    refine .emitted ?_
    induction l with
    | nil => exact .nil
    | cons a l ih => exact .cons (hs a) ih
  | _ => constructor

theorem simulates_moved (k : Id) {d lo hi : Int} (h0 : 0 < lo) (h1 : 0 < lo + d) : Simulates (MovedIn k d lo hi) (shownOk k d lo hi) := by
  refine ⟨fun j => keeps_movedIn h0 h1 k j, ?_⟩
  intro j now t t' h
  by_cases hj : j = k
  · have e : MovedIn k d lo hi j = Moved d lo hi := by funext s t; unfold MovedIn; rw [if_pos hj]
    rw [e] at h
    have f1 := same_finishTree (h.mono fun _ _ x => x.same) now
    by_cases hc : t.Ok ∧ Room t.spans.length lo hi ∧ Room t.spans.length (lo + d) (hi + d)
    · refine sameFate_mono (sameFate_both f1 (moved_finishTree h0 h1 h now hc.1 hc.2.1 hc.2.2)) ?_
      intro a b hab
      unfold shownOk
      rw [if_pos hj]
      exact ⟨hab.1, fun _ _ _ => hab.2⟩
    · refine sameFate_mono f1 ?_
      intro a b hab
      unfold shownOk
      rw [if_pos hj]
      exact ⟨hab, fun x y z => absurd ⟨x, y, z⟩ hc⟩
  · have e : MovedIn k d lo hi j = fun s t => s = t := by funext s t; unfold MovedIn; rw [if_neg hj]
    rw [e] at h
    have : t = t' := by
      obtain ⟨a1, a2, a3, a4, a5, a6⟩ := h
      have b2 := a2.eq
      have b6 := a6.eq
      cases t
      cases t'
      dsimp only at a1 b2 a3 a4 a5 b6
      subst a1 b2 a3 a4 a5 b6
      rfl
    subst this
    refine sameFate_rfl ?_ _
    intro a
    unfold shownOk
    rw [if_neg hj]

theorem Spec.Pairwise₂.mono_mem {α β : Type} {R S : α → β → Prop} {l : List α} {l' : List β} (h : Pairwise₂ R l l') (hr : ∀ a ∈ l, ∀ b, R a b → S a b) : Pairwise₂ S l l' := by
  induction h with
  | nil => exact .nil
  | cons h _ ih => exact .cons (hr _ List.mem_cons_self _ h) (ih fun a ha => hr a (List.mem_cons_of_mem _ ha))

/-- C121: if all times of one trace are told `d` nanoseconds later (or earlier), the same traces leave the collector at the same time for the same reasons; all spans of the other traces are
the same, and all spans of this trace are the same, but shown `d` nanoseconds later (if the corrections do not lead out of the years from 2020 to 2116). -/
theorem C121_moved (k : Id) {d lo hi : Int} (h0 : 0 < lo) (h1 : 0 < lo + d) {start : Time} {l l' : List Happening} (h : Pairwise₂ (SameHappening (MovedIn k d lo hi)) l l') {w : World}
    (hw : After start l w) : ∃ w', After start l' w' ∧ SameWorld (MovedIn k d lo hi) (ShownIn k d lo hi) w w' := by
  obtain ⟨w', hw', hs⟩ := same_after (simulates_moved k h0 h1) hw h
  refine ⟨w', hw', hs.pending, hs.blacklist, hs.metrics, hs.received, hs.refused, ?_, hs.clock⟩
  refine hs.removed.mono_mem ?_
  intro r hr r' hrr
  refine ⟨hrr.id, hrr.tree, sameFate_mono hrr.fate ?_⟩
  intro a b hab
  have hok := ((reachable_inv hw.reachable).gone r hr).ok
  unfold shownOk at hab
  unfold ShownIn
  split
  · next e =>
    rw [if_pos e] at hab
    exact ⟨hab.1, hab.2 hok⟩
  · next e =>
    rw [if_neg e] at hab
    exact hab

open FormatWitness in
/-- C121: a call known from both sides and a span below it, an hour later. -/
theorem C121_witness :
    let call (t : Int64) : List Span :=
      [{ id := 7, trace := 5, parent := 7, timestamp := 1600000000000000000 + t, duration := 1000, timings := { CS := 1600000000000000000 + t, CR := 1600000000000001000 + t } },
       { id := 7, trace := 5, parent := 7, timestamp := 1600000000000300400 + t, duration := 200, timings := { SR := 1600000000000300400 + t, SS := 1600000000000300600 + t } },
       { id := 8, trace := 5, parent := 7, timestamp := 1600000000000300500 + t, duration := 10 }]
    let hour : Int64 := 3600000000000
    Pairwise₂ (Moved 3600000000000 1600000000000000000 1600000000001000000) (call 0) (call hour) ∧
    Room 2 1600000000000000000 1600000000001000000 ∧ Room 2 (1600000000000000000 + 3600000000000) (1600000000001000000 + 3600000000000) ∧
    (emittedOf ((world (call 0)).c.tick (input (call 0))).2).map (fun t => t.map fun s => (s.id, s.timestamp, s.duration)) =
      [[(8, 1600000000000000500, 10), (7, 1600000000000000000, 1000)]] ∧
    (emittedOf ((world (call hour)).c.tick (input (call hour))).2).map (fun t => t.map fun s => (s.id, s.timestamp, s.duration)) =
      [[(8, 1600003600000000500, 10), (7, 1600003600000000000, 1000)]] := by
  refine ⟨?_, by unfold Room; decide, by unfold Room; decide, by decide +kernel, by decide +kernel⟩
  refine .cons ?_ (.cons ?_ (.cons ?_ .nil)) <;>
  exact ⟨⟨rfl, rfl, rfl, by decide, fun x => x.elim, fun x => x.elim, fun x => x.elim, fun _ => rfl, fun _ => rfl, fun _ _ => rfl⟩, by decide, by decide, rfl,
    by unfold ToldLater; decide, by unfold ToldLater; decide, by unfold ToldLater; decide, by unfold ToldLater; decide⟩

open FormatWitness in
/-- C121: without room for corrections this is not true: a span below a call whose callee is two hours behind, in the first hours of 2020. -/
theorem C121_needs_room :
    let call (t : Int64) : List Span :=
      [{ id := 7, trace := 5, parent := 7, timestamp := 1577840400000000000 + t, duration := 1000, timings := { CS := 1577840400000000000 + t, CR := 1577840400000001000 + t } },
       { id := 7, trace := 5, parent := 7, timestamp := 1577847600000000400 + t, duration := 200, timings := { SR := 1577847600000000400 + t, SS := 1577847600000000600 + t } },
       { id := 8, trace := 5, parent := 7, timestamp := 1577842000000000000 + t, duration := 10 }]
    let day : Int64 := 86400000000000
    (emittedOf ((world (call 0)).c.tick (input (call 0))).2).map (fun t => t.map fun s => (s.id, s.timestamp, s.duration)) =
      [[(8, 1577840400000000000, 10), (7, 1577840400000000000, 1000)]] ∧
    (emittedOf ((world (call day)).c.tick (input (call day))).2).map (fun t => t.map fun s => (s.id, s.timestamp - day, s.duration)) =
      [[(8, 1577834800000000000, 10), (7, 1577840400000000000, 1000)]] := by
  decide +kernel

end Verif
