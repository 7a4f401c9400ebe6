import Verif.Props.Held
import Verif.Props.Handlers
import Verif.Props.Oversize
import Verif.Proofs.Recovery

/-!
# C115: what a proxy with Kafka holds
-/

namespace Verif

variable {κ : Type} {conv : κ → Span → Option Span × κ} {k : κ} {part : List UInt8 → Nat}

/-- The spans that are not in the channel yet, of requests or callbacks that have not returned. -/
def Http.waiting (h : Http) : Nat := (h.conns.map fun c => match c with | .pushing l => l.length | _ => 0).sum

/-- If each element counts at most one, and every one that counts belongs to an entry, which tells its position, then the sum is at most the number of entries. -/
theorem sum_le_owners {α β : Type} (f : α → Nat) (owner : β → Option Nat) (l : List α) (os : List β) (h1 : ∀ a ∈ l, f a ≤ 1)
    (h2 : ∀ i a, l[i]? = some a → f a ≠ 0 → ∃ o ∈ os, owner o = some i) : (l.map f).sum ≤ os.length := by
  have hsum : ∀ (l : List α) (j : Nat), (∀ a ∈ l, f a ≤ 1) → (l.map f).sum ≤ ((l.zipIdx j).filter fun p => f p.1 ≠ 0).length := by
    intro l
    induction l with
    | nil => simp
    | cons a l ih =>
      intro j h
      have h1 := ih (j + 1) fun b hb => h b (List.mem_cons_of_mem _ hb)
      have h2 := h a (List.mem_cons_self ..)
      rw [List.zipIdx_cons, List.filter_cons, List.map_cons, List.sum_cons]
      by_cases h0 : f a = 0
      · rw [if_neg (by simp [h0])]; omega
      · rw [if_pos (by simp [h0]), List.length_cons]; omega
  have hnd : (((l.zipIdx 0).filter fun p => f p.1 ≠ 0).map Prod.snd).Nodup := by
    refine List.Nodup.sublist (List.Sublist.map _ List.filter_sublist) ?_
    rw [List.zipIdx_map_snd]
    exact List.nodup_range'
  have hsub : ∀ i ∈ ((l.zipIdx 0).filter fun p => f p.1 ≠ 0).map Prod.snd, i ∈ os.filterMap owner := by
    intro i hi
    obtain ⟨⟨a, i'⟩, hp, rfl⟩ := List.mem_map.mp hi
    obtain ⟨hp, h0⟩ := List.mem_filter.mp hp
    obtain ⟨o, ho, e⟩ := h2 i' a (by simpa using List.mem_zipIdx_iff_getElem?.mp hp) (by simpa using h0)
    exact List.mem_filterMap.mpr ⟨o, ho, e⟩
  have h3 := List.Nodup.length_le_of_subset hnd hsub
  rw [List.length_map] at h3
  exact Nat.le_trans (hsum l 0 h1) (Nat.le_trans h3 (List.length_filterMap_le ..))

/-- C115: a proxy that gets its spans from Kafka. In front of Kafka at most 256 spans are in the channel, and of what was encoded one message waits for the producer and one is in its dispatcher. Behind
Kafka no more callbacks are open than partitions are assigned, with one span each; and the rest is bounded as without Kafka. This is so after any crashes, losses and rebalances. -/
theorem C115_kafka {outcomes : List Parsed} {foreign : List (List UInt8)} {c : Cluster κ} (h : Cluster.Reachable conv k part outcomes foreign c) {n : Instance κ} (hn : n ∈ c.instances) :
    n.front.http.channel.length ≤ 256 ∧ n.back.http.waiting ≤ n.claims.length ∧ (n.claims.map (·.partition)).Nodup ∧ (∃ a b, System.Marks conv k a b n.back) ∧
    (n.back.world.Fits → n.back.onTheWay ≤ 4829778) := by
  obtain ⟨⟨outs, t, hf⟩, ps, calls, log, hb, hc⟩ := h.started n hn
  obtain ⟨flog, prod, fly, rest, inv⟩ := hf.inv
  refine ⟨inv.http.cap, ?_, ?_, C115_marks.mp ⟨_, hb⟩, C115_way hb⟩
  · obtain ⟨hlen, hall, _⟩ := C33_all_or_nothing hc.http
    have hle : ∀ (i : Nat) (a : Conn), n.back.http.conns[i]? = some a → ∀ l : List Span, a = Conn.pushing l → l.length ≤ 1 := by
      intro i a ha l e
      have hi : i < calls.length := by
        have := (List.getElem?_eq_some_iff.mp ha).1
        rw [hlen, List.length_map] at this
        exact this
      have := hall i (.spans [calls[i].2]) a (by rw [List.getElem?_map, List.getElem?_eq_getElem hi]; rfl) ha
      subst e
      generalize hp : pushedBy i log = pu at this
      have key : ∀ (o : Parsed) (x : Span), o = .spans [x] → AllOrNothing o (.pushing l) pu → l.length ≤ 1 := by
        intro o x e h
        cases h with
        | pushing =>
          injection e with e
          have := congrArg List.length e
          simp at this
          omega
      exact key _ _ rfl this
    refine sum_le_owners _ Claim.busy _ _ ?_ ?_
    · intro a ha
      obtain ⟨i, hi⟩ := List.getElem?_of_mem ha
      cases a with
      | pushing l => exact hle i _ hi l rfl
      | _ => simp
    · intro i a hi h0
      cases a with
      | pushing l => exact hc.opened i l hi
      | _ => exact absurd rfl h0
  · rw [hc.parts]; exact hc.nodup

/-- A proxy with a partition, whose callback holds a span. -/
example (conv : κ → Span → Option Span × κ) (k : κ) (part : List UInt8 → Nat) : ∃ outcomes foreign, ∃ c : Cluster κ, ∃ n, Cluster.Reachable conv k part outcomes foreign c ∧ n ∈ c.instances ∧
    n.claims.length = 1 ∧ n.back.http.waiting = 1 := by
  have h0 : Cluster.Reachable conv k part [] [] ({} : Cluster κ) := .init
  have h1 := h0.upheaval (.start 0)
  have h2 := h1.upheaval (.assign (i := 0) 0 0 rfl (by intro n' hn' cl hcl; simp at hn'; subst hn'; cases hcl))
  have h3 := h2.foreign 0 (binaryEncode { id := 7, trace := 5 } [])
  have hd : ∃ x, decodeKafkaMessage (binaryEncode { id := 7, trace := 5 } []) = some x := by
    have : (decodeKafkaMessage (binaryEncode { id := 7, trace := 5 } [])).isSome = true := by decide +kernel
    exact Option.isSome_iff_exists.mp this
  obtain ⟨x, hx⟩ := hd
  have h4 := h3.step (.back (i := 0) rfl (.call (j := 0) rfl rfl rfl hx))
  exact ⟨_, _, _, _, h4, List.mem_cons_self .., rfl, rfl⟩

end Verif
