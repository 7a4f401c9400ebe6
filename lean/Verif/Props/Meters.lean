import Verif.Model.Meters
import Verif.Props.Collector
import Verif.Props.Balance
import Verif.Proofs.Finish

/-!
# C124, C125: two more metrics
-/

namespace Verif

open Spec Std

/-! ## C124 -/

theorem addSpan_merges {t : Tree} (h : t.Inv) (now : Time) (s : Span) : (t.addSpan now s).spans.length + t.addSpanMerges s = t.spans.length + 1 := by
  unfold Tree.addSpan Tree.addSpanMerges
  dsimp only
  cases hg : getSpanRef t.spans s.id with
  | none => dsimp only; rw [(spansAppend_perm h.sorted s).length_eq]; rfl
  | some i => dsimp only; rw [List.length_modify]

/-- A fake root has a new id. -/
theorem withFakeRootMerges_zero {t : Tree} (h : t.Inv) : withFakeRootMerges t = 0 := by
  unfold withFakeRootMerges
  split
  · next first second rest hp =>
    by_cases ha : allTheSameParent (first :: second :: rest) = true
    · rw [if_pos ha]
      have hsp := sharedParent_of_pick h.sorted hp ha
      unfold Tree.addSpanMerges
      have : getSpanRef t.spans (createFakeRoot first (second :: rest)).id = none := by
        rw [getSpanRef_eq_none h.sorted]
        intro q hq he
        have he : q.id = first.parent := he
        obtain ⟨⟨a, b, hra, hrb, hab⟩, hall⟩ := hsp
        have key : ∀ x, IsRootOf t.spans x → x.id = first.parent := by
          intro x hx
          rcases hx.2 with h1 | h1
          · rw [← h1]; exact hall x hx
          · exact absurd (he.trans (hall x hx).symm) (h1 q hq)
        exact hab ((key a hra).trans (key b hrb).symm)
      rw [this]
    · rw [if_neg ha]
  · rfl

theorem finishMerges_zero {dU dS : Time} {e : Id × Tree} (h : e.2.Inv) : finishMerges dU dS e = 0 := by
  unfold finishMerges
  dsimp only
  split
  · rfl
  · split
    · rfl
    · split
      · rfl
      · exact withFakeRootMerges_zero h

theorem tickMerges_zero {w : World} (hw : Reachable w) {i : TickInput} (hv : i.Valid w.c) : w.c.tickMerges i = 0 := by
  unfold Collector.tickMerges
  dsimp only
  rw [List.sum_eq_zero_iff_forall_eq_nat]
  intro x hx
  obtain ⟨e, he, rfl⟩ := List.mem_map.mp hx
  exact finishMerges_zero ((reachable_inv hw).trees _ _ ((mem_range hv.order).mp he)).inv

theorem Metered.reachable {w : World} {n : Nat} (h : Metered w n) : Reachable w := by
  induction h with
  | init now => exact .init now
  | receive now1 now2 s _ h1 h2 ih => exact .receive now1 now2 s ih h1 h2
  | tick i _ hv hc ih => exact .tick i ih hv hc

/-- Every history has its count. -/
theorem Metered.ofReachable {w : World} (h : Reachable w) : ∃ n, Metered w n := by
  induction h with
  | init now => exact ⟨_, .init now⟩
  | receive now1 now2 s _ h1 h2 ih => obtain ⟨n, ih⟩ := ih; exact ⟨_, .receive now1 now2 s ih h1 h2⟩
  | tick i _ hv hc ih => obtain ⟨n, ih⟩ := ih; exact ⟨_, .tick i ih hv hc⟩

/-- The spans of the traces. -/
def nodesIn (l : List Tree) : Nat := (l.map fun t => t.spans.length).sum

/-- What the traces were made of. -/
def membersIn (l : List Tree) : Nat := (l.map fun t => t.members.length).sum

/-- All traces, pending or gone. -/
def World.allTrees (w : World) : List Tree := w.c.traces.toList.map Prod.snd ++ w.removed.map Removal.tree

theorem nodesIn_perm {l l' : List Tree} (h : l.Perm l') : nodesIn l = nodesIn l' := (h.map _).sum_nat
theorem membersIn_perm {l l' : List Tree} (h : l.Perm l') : membersIn l = membersIn l' := (h.map _).sum_nat

theorem metered_count {w : World} {n : Nat} (h : Metered w n) : n + nodesIn w.allTrees = membersIn w.allTrees := by
  induction h with
  | init now => rfl
  | @receive w n now1 now2 s hm h1 h2 ih =>
    have hinv := reachable_inv hm.reachable
    unfold Collector.receiveMerges
    by_cases ht : s.trace = 0 ∨ s.id = 0
    · rw [if_pos ht]
      have e : (w.receive now1 now2 s).allTrees = w.allTrees := by
        unfold World.allTrees World.receive Collector.receive
        rw [if_pos ht]
      rw [e]; exact ih
    · rw [if_neg ht]
      by_cases hb : w.c.blacklist.contains s.trace = true
      · rw [if_pos hb]
        have e : (w.receive now1 now2 s).allTrees = w.allTrees := by
          unfold World.allTrees World.receive Collector.receive
          rw [if_neg ht, if_pos hb]
        rw [e]; exact ih
      · rw [if_neg hb]
        generalize hold : (w.c.traces[s.trace]?).getD (newTree now1 s.trace) = old
        have e : (w.receive now1 now2 s).allTrees = (w.c.traces.insert s.trace (old.addSpan now2 s)).toList.map Prod.snd ++ w.removed.map Removal.tree := by
          unfold World.allTrees World.receive Collector.receive
          rw [if_neg ht, if_neg hb]
          dsimp only
          rw [hold]
        have p1 : (w.receive now1 now2 s).allTrees.Perm (old.addSpan now2 s :: ((w.c.traces.erase s.trace).toList.map Prod.snd ++ w.removed.map Removal.tree)) := by
          rw [e]
          exact ((toList_insert_perm w.c.traces s.trace (old.addSpan now2 s)).map Prod.snd).append_right _
        have p2 : old.Inv ∧ nodesIn w.allTrees = old.spans.length + nodesIn ((w.c.traces.erase s.trace).toList.map Prod.snd ++ w.removed.map Removal.tree) ∧
            membersIn w.allTrees = old.members.length + membersIn ((w.c.traces.erase s.trace).toList.map Prod.snd ++ w.removed.map Removal.tree) := by
          cases hg : w.c.traces[s.trace]? with
          | none =>
            rw [hg] at hold
            subst hold
            refine ⟨newTree_inv _ _, ?_, ?_⟩
            · rw [erase_of_none hg]; exact (Nat.zero_add _).symm
            · rw [erase_of_none hg]; exact (Nat.zero_add _).symm
          | some t =>
            rw [hg] at hold
            have hold : t = old := hold
            subst hold
            have p := ((toList_erase_perm hg).map Prod.snd).append_right (w.removed.map Removal.tree)
            exact ⟨(hinv.trees _ _ hg).inv, nodesIn_perm p, membersIn_perm p⟩
        obtain ⟨i1, i2, i3⟩ := p2
        have m1 := addSpan_merges i1 now2 s
        have m2 : (old.addSpan now2 s).members.length = old.members.length + 1 := by rw [old.addSpan_members]; simp
        have q1 : nodesIn (w.receive now1 now2 s).allTrees = (old.addSpan now2 s).spans.length + nodesIn ((w.c.traces.erase s.trace).toList.map Prod.snd ++ w.removed.map Removal.tree) := nodesIn_perm p1
        have q2 : membersIn (w.receive now1 now2 s).allTrees = (old.addSpan now2 s).members.length + membersIn ((w.c.traces.erase s.trace).toList.map Prod.snd ++ w.removed.map Removal.tree) := membersIn_perm p1
        omega
  | @tick w n i hm hv hc ih =>
    rw [tickMerges_zero hm.reachable hv, Nat.add_zero]
    have p : w.allTrees.Perm (w.tick i).allTrees := by
      unfold World.allTrees World.tick
      dsimp only
      have := ((tick_partition w.c i hv).map Prod.snd).append_right (w.removed.map Removal.tree)
      rw [List.map_append, List.map_map] at this
      refine this.trans ?_
      rw [List.map_append]
      refine (List.perm_append_comm.append_right _).trans ?_
      rw [List.append_assoc]
      exact (List.perm_append_comm).append_left _
    rw [← nodesIn_perm p, ← membersIn_perm p]; exact ih

/-- C124: at any time, the spans received (with ids) are those that were refused, those that were merged into another one (as the meter says), and the different spans of the traces,
both of those that are pending and of those that left. -/
theorem C124_merged {w : World} {n : Nat} (h : Metered w n) :
    (w.received.filter fun s => decide (Traced s)).length =
      w.refused.length + n + ((w.c.traces.toList.map fun e => e.2.spans.length).sum + (w.removed.map fun r => r.tree.spans.length).sum) := by
  have hc := (reachable_inv h.reachable).conserved.length_eq
  have hm := metered_count h
  have e1 : nodesIn w.allTrees = (w.c.traces.toList.map fun e => e.2.spans.length).sum + (w.removed.map fun r => r.tree.spans.length).sum := by
    unfold nodesIn World.allTrees
    rw [List.map_append, List.sum_append, List.map_map, List.map_map]; rfl
  have e2 : membersIn w.allTrees = (pendingMembers w.c).length + (w.removed.flatMap fun r => r.tree.members).length := by
    unfold membersIn World.allTrees pendingMembers
    rw [List.map_append, List.sum_append, List.map_map, List.map_map, List.length_flatMap, List.length_flatMap]; rfl
  rw [hc, List.length_append, List.length_append]
  omega

/-- Two halves and another span: one is merged. -/
theorem C124_witness : ∃ w, Metered w 1 ∧ w.received.length = 3 ∧ (w.c.traces.toList.map fun e => e.2.spans.length) = [2] := by
  let a : Span := { id := 7, trace := 5, parent := 7 }
  let b : Span := { id := 8, trace := 5, parent := 7 }
  let w : World := ((World.receive { clock := 0 } 0 0 a).receive 0 0 b).receive 0 0 a
  have h : Metered w _ := Metered.receive 0 0 a (.receive 0 0 b (.receive 0 0 a (.init 0) (Int.le_refl _) (Int.le_refl _)) (Int.le_refl _) (Int.le_refl _)) (Int.le_refl _) (Int.le_refl _)
  have e : 0 + Collector.receiveMerges {} 0 a + (World.receive { clock := 0 } 0 0 a).c.receiveMerges 0 b + ((World.receive { clock := 0 } 0 0 a).receive 0 0 b).c.receiveMerges 0 a = 1 := by decide +kernel
  exact ⟨w, e ▸ h, rfl, by decide +kernel⟩

/-! ## C125 -/

theorem Sampled.reachable {p : Pool} {m : SizeMeter} (h : Sampled p m) : p.Reachable := by
  induction h with
  | init => exact .init
  | new _ ih => exact .step ih (.new _)
  | encode _ hj he ih => exact .step ih (.encode hj he)

theorem Sampled.counter {p : Pool} {m : SizeMeter} (h : Sampled p m) : m.counter.toNat = p.sent.length % 2 ^ 64 := by
  induction h with
  | init => rfl
  | new _ ih => exact ih
  | @encode p m _ _ _ _ _ _ _ _ _ _ ih =>
    show (m.counter + 1).toNat = (p.sent ++ [_]).length % 2 ^ 64
    rw [UInt64.toNat_add, ih, List.length_append, List.length_singleton]
    exact (Nat.add_mod _ _ _).symm ▸ by simp

/-- C125: the histogram gets the sizes of the 128th message, the 256th, and so on, and of no others; each is the number of bytes of this message. -/
theorem C125_sizes {p : Pool} {m : SizeMeter} (h : Sampled p m) :
    m.samples.length = p.sent.length / 128 ∧
    ∀ (j : Nat) (n : Nat), m.samples[j]? = some n ↔ ∃ x, p.sent[128 * j + 127]? = some x ∧ n = (binaryEncode x.1 x.2.1).length := by
  induction h with
  | init => exact ⟨rfl, fun j n => by simp⟩
  | new _ ih => exact ih
  | @encode p m j enc enc' span ord heap msg hs hj he ih =>
    obtain ⟨h1, h2⟩ := ih
    have hval : heap.deref msg.value = binaryEncode span ord :=
      (C10_no_alias _ (.step hs.reachable (.encode hj he)) (span, ord, msg) (by simp)).2
    have hc : (m.counter + 1) % 128 = 0 ↔ (p.sent.length + 1) % 128 = 0 := by
      rw [← UInt64.toNat_inj, UInt64.toNat_mod, UInt64.toNat_add, hs.counter]
      show (p.sent.length % 2 ^ 64 + 1) % 2 ^ 64 % 128 = 0 ↔ _
      omega
    unfold SizeMeter.count
    dsimp only
    rw [hval]
    by_cases hz : (p.sent.length + 1) % 128 = 0
    · rw [if_pos (hc.mpr hz)]
      refine ⟨by simp only [List.length_append, List.length_singleton]; omega, ?_⟩
      intro k n
      by_cases hk : k < m.samples.length
      · rw [List.getElem?_append_left hk, h2, List.getElem?_append_left (by omega)]
      · by_cases hk' : k = m.samples.length
        · subst hk'
          have e : 128 * m.samples.length + 127 = p.sent.length := by omega
          rw [e]
          simp [eq_comm]
        · rw [List.getElem?_eq_none (by simp only [List.length_append, List.length_singleton]; omega),
            List.getElem?_eq_none (by simp only [List.length_append, List.length_singleton]; omega)]
          simp
    · rw [if_neg (fun hh => hz (hc.mp hh))]
      refine ⟨by simp only [List.length_append, List.length_singleton]; omega, ?_⟩
      intro k n
      rw [h2]
      by_cases hk : 128 * k + 127 < p.sent.length
      · rw [List.getElem?_append_left hk]
      · rw [List.getElem?_eq_none (by omega), List.getElem?_eq_none (by simp only [List.length_append, List.length_singleton]; omega)]

/-- There are histories with any messages. -/
theorem C125_exists (l : List (Span × List (Str × Str))) : ∃ p m, Sampled p m ∧ p.sent.map (fun x => (x.1, x.2.1)) = l := by
  obtain ⟨p, hp, e⟩ := C10_history_exists l
  have key : ∀ {p : Pool}, p.Reachable → ∃ m, Sampled p m := by
    intro p hp
    induction hp with
    | init => exact ⟨_, .init⟩
    | step _ hs ih =>
      obtain ⟨m, ih⟩ := ih
      cases hs with
      | new => exact ⟨_, .new ih⟩
      | encode hj he => exact ⟨_, .encode ih hj he⟩
  obtain ⟨m, hm⟩ := key hp
  exact ⟨p, m, hm, e⟩

end Verif
