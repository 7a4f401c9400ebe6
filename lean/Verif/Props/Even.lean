import Verif.Props.TimelyLoad
import Verif.Spec.Burst

/-!
# An even load under which nothing is discarded: C150
-/

namespace Verif

open Spec

local macro "tomega" : tactic => `(tactic| (dsimp only [Time] at *; omega))

section
variable {κ : Type} {conv : κ → Span → Option Span × κ} {k : κ} {r : Execution conv k} {time : Nat → Time}

/-! ## When the spans of a trace are received -/

/-- Once a span of a trace was received, further ones are received after at most this time. -/
def Gathers (r : Execution conv k) (time : Nat → Time) (gap : Time) : Prop :=
  ∀ (j n : Nat) (id : Id), j ≤ n → receivedFor id (r.state j).world.received ≠ [] →
    receivedFor id (r.state (n + 1)).world.received ≠ receivedFor id (r.state n).world.received → time (n + 1) ≤ time j + gap

theorem changed_between {α : Type} {f : Nat → α} {a b : Nat} (hab : a ≤ b) (h : f b ≠ f a) : ∃ p, a ≤ p ∧ p < b ∧ f (p + 1) ≠ f p := by
  induction hab with
  | refl => exact absurd rfl h
  | @step b hab ih =>
    by_cases hb : f b = f a
    · exact ⟨b, hab, Nat.lt_succ_self b, by rw [hb]; exact h⟩
    · obtain ⟨p, h1, h2, h3⟩ := ih hb
      exact ⟨p, h1, by omega, h3⟩

theorem receivedFor_trace (id : Id) (l : List Span) : receivedFor id l = (spansOfTrace id l).filter fun s => decide (Traced s) := by
  unfold receivedFor spansOfTrace
  rw [List.filter_filter]
  refine List.filter_congr fun s _ => ?_
  by_cases h : s.trace = id <;> simp [h]

/-- What is posted together is received together, apart from the delay. -/
theorem gathers_of_together (hc : r.Clock time) {gap delay : Time} (hgap : 0 ≤ gap) (hd : r.Responsive time delay) (h0 : r.outcomes 0 = []) (ht : r.Together time gap) : Gathers r time (gap + delay) := by
  intro j n id hjn hne hch
  obtain ⟨q, hq, hQ, hlast⟩ := last_before (Q := fun q => q = 0 ∨ ¬ (r.state q).Pending) (m := n) (.inl rfl)
  have htime : time (n + 1) ≤ time (q + 1) + delay := by
    obtain ⟨q', g1, g2, g3⟩ := hd (q + 1)
    have : n < q' := Classical.byContradiction fun h => hlast q' (by omega) (by omega) (.inr g3)
    have := hc.le (show n + 1 ≤ q' by omega)
    tomega
  have hlen : (receivedFor id (r.state n).world.received).length < (receivedFor id (r.state (n + 1)).world.received).length := by
    obtain ⟨y, hy⟩ := (flow r (Nat.le_succ n)).2
    rw [← hy] at hch ⊢
    unfold receivedFor at *
    rw [List.filter_append] at *
    rw [List.length_append]
    refine Nat.lt_add_of_pos_right (List.length_pos_iff.mpr fun e => hch ?_)
    rw [e, List.append_nil]
  -- at `q` all that was posted was received
  have hall : (receivedFor id (acceptedSpans (r.outcomes q))).length ≤ (receivedFor id (r.state q).world.received).length := by
    rcases hQ with rfl | h
    · rw [h0]; exact Nat.zero_le _
    · have hp := (received_of_accepted (r := r) q).perm_of_length_le (accepted_idle h)
      exact Nat.le_of_eq (hp.filter _).length_eq.symm
  have hmono := receivedFor_mono r hq id
  have hup : (receivedFor id (r.state (n + 1)).world.received).length ≤ (receivedFor id (acceptedSpans (r.outcomes (n + 1)))).length :=
    ((received_of_accepted (r := r) (n + 1)).filter _).length_le
  obtain ⟨p, hp1, hp2, hp3⟩ := changed_between (f := fun i => spansOfTrace id (acceptedSpans (r.outcomes i))) (show q ≤ n + 1 by omega) fun e => by
    rw [receivedFor_trace id (acceptedSpans _), e, ← receivedFor_trace] at hup
    omega
  have h1 := hc.le (show q + 1 ≤ p + 1 by omega)
  by_cases hpj : j ≤ p
  · have := ht j p id hpj (fun e => hne ?_) hp3
    · tomega
    · have := ((received_of_accepted (r := r) j).filter fun s => decide (Traced s) && (s.trace == id)).length_le
      change (receivedFor id _).length ≤ (receivedFor id _).length at this
      rw [receivedFor_trace id (acceptedSpans _), e] at this
      exact List.eq_nil_of_length_eq_zero (Nat.le_zero.mp this)
  · have := hc.le (show p + 1 ≤ j by omega)
    tomega

/-! ## When a pending trace was updated -/

theorem received_tree {w : World} {now1 now2 : Time} {x : Span} {id : Id} {t : Tree} (h : (w.receive now1 now2 x).c.traces[id]? = some t) :
    w.c.traces[id]? = some t ∨ (Traced x ∧ x.trace = id ∧ t.updated = now2) := by
  change (w.c.receive now1 now2 x).traces[id]? = some t at h
  unfold Collector.receive at h
  by_cases htr : x.trace = 0 ∨ x.id = 0
  · rw [if_pos htr] at h; exact .inl h
  · rw [if_neg htr] at h
    have htr : Traced x := Classical.byContradiction fun e => htr ((not_traced_iff x).mpr e)
    by_cases hb : w.c.blacklist.contains x.trace = true
    · rw [if_pos hb] at h; exact .inl h
    · rw [if_neg hb] at h
      dsimp only at h
      rw [get_insert] at h
      split at h
      · next e =>
        right
        cases h
        exact ⟨htr, e, (Tree.addSpan_fields _ _ _).2.2⟩
      · exact .inl h

/-- The steps, as seen by the collector. -/
theorem world_next {o o' : List Parsed} {s s' : System κ} (h : System.Next conv o s o' s') :
    s'.world = s.world ∨ (∃ now1 now2 x, s'.world = s.world.receive now1 now2 x) ∨ ∃ i : TickInput, i.Valid s.world.c ∧ s'.world = s.world.tick i := by
  cases h with
  | step h =>
    cases h with
    | @collect x rest now1 now2 a b c d => exact .inr (.inl ⟨now1, now2, x, rfl⟩)
    | _ => exact .inl rfl
  | event h =>
    cases h with
    | tick i ho hv hc => exact .inr (.inr ⟨i, hv, rfl⟩)
    | _ => exact .inl rfl
  | request o => exact .inl rfl
  | stay => exact .inl rfl

theorem tree_next {o o' : List Parsed} {s s' : System κ} (h : System.Next conv o s o' s') {id : Id} {t : Tree} (ht : s'.world.c.traces[id]? = some t) :
    s.world.c.traces[id]? = some t ∨ receivedFor id s'.world.received ≠ receivedFor id s.world.received := by
  rcases world_next h with e | ⟨now1, now2, x, e⟩ | ⟨i, hv, e⟩
  · rw [e] at ht; exact .inl ht
  · rw [e] at ht ⊢
    rcases received_tree ht with h1 | ⟨h1, h2, _⟩
    · exact .inl h1
    · right
      show receivedFor id (s.world.received ++ [x]) ≠ _
      rw [receivedFor_append, if_pos ⟨h1, h2⟩]
      intro e
      have := congrArg List.length e
      simp at this
  · rw [e] at ht
    exact .inl (tick_keeps_tree hv ht)

theorem updated_by (hc : r.Clock time) {gap : Time} (hgap : 0 ≤ gap) (hg : Gathers r time gap) {a n : Nat} (han : a ≤ n) {id : Id} (hne : receivedFor id (r.state a).world.received ≠ []) {t : Tree}
    (ht : (r.state n).world.c.traces[id]? = some t) : t.updated ≤ time a + gap := by
  induction han with
  | refl =>
    have h1 := ((reachable_inv (r.world a)).trees id t ht).updated
    have h2 := hc.collector a
    tomega
  | @step n han ih =>
    rcases tree_next (r.next n) ht with h | h
    · exact ih h
    · have h1 := ((reachable_inv (r.world (n + 1))).trees id t ht).updated
      have h2 := hc.collector (n + 1)
      have h3 := hg a n id han hne h
      tomega

/-- After 8 seconds, the gap and the period of the ticks, no trace of which a span was received before is pending, ever. -/
theorem gone_after (hc : r.Clock time) {gap period : Time} (hgap : 0 ≤ gap) (hg : Gathers r time gap) (ht : r.CollectorTicks time period) (a : Nat) :
    ∃ b, a ≤ b ∧ time b ≤ time a + 8000000000 + gap + period ∧ ∀ q, b ≤ q → ∀ id, receivedFor id (r.state a).world.received ≠ [] → (r.state q).world.c.traces[id]? = none := by
  obtain ⟨m, i, h1, h2, hv, hs, _⟩ := ht (time a + gap + 8000000000) (by have := hc.le (Nat.zero_le a); tomega)
  have hclock : i.now2 ≤ time (m + 1) := by
    have := hc.collector (m + 1)
    rw [hs] at this
    exact this
  have hnow := hv.clock
  have ham : a ≤ m := hc.later (by tomega)
  refine ⟨m + 1, by omega, by tomega, fun q hq id hne => ?_⟩
  induction hq with
  | refl =>
    cases h : (r.state (m + 1)).world.c.traces[id]? with
    | none => rfl
    | some t =>
      exfalso
      have hu := updated_by hc hgap hg (show a ≤ m + 1 by omega) hne h
      rw [hs] at h
      have h : ((r.state m).world.c.tick i).1.traces[id]? = some t := h
      obtain ⟨_, _, _, _, hall⟩ := C52_pending_time (r.world m) hv
      rw [hall id t (tick_keeps_tree hv h) (by tomega)] at h
      cases h
  | @step q hq ih =>
    have hq : m + 1 ≤ q := hq
    cases h : (r.state (q + 1)).world.c.traces[id]? with
    | none => rfl
    | some t =>
      exfalso
      rcases tree_next (r.next q) h with h | h
      · rw [ih] at h; cases h
      · have h3 := hg a q id (by omega) hne h
        have h4 := hc.le (show m + 1 ≤ q + 1 by omega)
        tomega

theorem left_after (hc : r.Clock time) {gap period : Time} (hgap : 0 ≤ gap) (hg : Gathers r time gap) (ht : r.CollectorTicks time period) (n : Nat) :
    ∃ m, n ≤ m ∧ time m ≤ time n + (8000000000 + gap + period) ∧ List.Subperm ((r.state n).world.received.filter fun s => decide (Traced s)) (r.state m).world.left := by
  obtain ⟨b, hb, htb, hgone⟩ := gone_after hc hgap hg ht n
  refine ⟨b, hb, by tomega, left_of_leaves hb (fun id t h => ?_) (List.Sublist.refl _)⟩
  have hnil : receivedFor id (r.state n).world.received = [] := Classical.byContradiction fun hne => by
    rw [hgone b (Nat.le_refl _) id hne] at h; cases h
  have := (reachable_inv (r.world b)).suffix id t h
  obtain ⟨D, hD⟩ := (flow r hb).2
  rw [← hD, List.drop_left]
  rw [← hD] at this
  have e : receivedFor id ((r.state n).world.received ++ D) = receivedFor id (r.state n).world.received ++ receivedFor id D := List.filter_append ..
  rw [e, hnil, List.nil_append] at this
  exact this

/-- So under a bounded load the buffer time is 8 seconds. -/
theorem few_wait (hc : r.Clock time) {gap period every : Time} {burst : Nat} (hgap : 0 ≤ gap) (hg : Gathers r time gap) (ht : r.CollectorTicks time period) (h0 : (r.state 0).world.received = [])
    (hev : 0 < every) (hf : AtMost r.collected time burst (8000000000 + gap + period) every) (m : Nat) : counted (r.state m).world.c.traces.toList ≤ burst := by
  have hp := period_pos hc ht
  cases m with
  | zero =>
    have h1 := counted_members (reachable_inv (r.world 0))
    have h2 := (reachable_inv (r.world 0)).conserved.length_eq
    rw [h0, List.length_append, List.length_append] at h2
    simp only [List.filter_nil, List.length_nil] at h2
    omega
  | succ m =>
    obtain ⟨j, hj, htj, hle⟩ := waiting_in hc (by tomega) (left_after hc hgap hg ht) h0 m
    have : r.collected (m + 1) ≤ r.collected j + burst := by
      rcases hf j m hj with h | h
      · exact h
      · refine Classical.byContradiction fun hn => ?_
        have : 0 < every * ((r.collected (m + 1) : Int) - r.collected j - burst) := Int.mul_pos hev (by omega)
        tomega
    omega

/-! ## What is finished until some time was received 8 seconds before -/

/-- The spans of removed traces that were not updated since. -/
def removedOld (id : Id) (c : Time) (l : List Removal) : Nat := ((l.filter fun x => decide (x.id = id ∧ x.tree.updated < c)).map fun x => x.tree.members.length).sum

/-- The spans of the pending trace, if it was not updated since. -/
def pendingOld (id : Id) (c : Time) (o : Option Tree) : Nat :=
  match o with
  | some t => if t.updated < c then t.members.length else 0
  | none => 0

theorem removedOld_append (id : Id) (c : Time) (l l' : List Removal) : removedOld id c (l ++ l') = removedOld id c l + removedOld id c l' := by
  unfold removedOld
  rw [List.filter_append, List.map_append, List.sum_append]

/-- Of the traces with pairwise different ids, at most one has this id. -/
theorem removedOld_once {l : List Removal} (hnd : (l.map Removal.id).Nodup) (id : Id) (c : Time) :
    removedOld id c l = 0 ∨ ∃ x ∈ l, x.id = id ∧ removedOld id c l ≤ pendingOld id c (some x.tree) := by
  induction l with
  | nil => exact .inl rfl
  | cons y l ih =>
    rw [List.map_cons, List.nodup_cons] at hnd
    rw [show y :: l = [y] ++ l from rfl, removedOld_append]
    by_cases hy : y.id = id ∧ y.tree.updated < c
    · right
      refine ⟨y, by simp, hy.1, ?_⟩
      have h0 : removedOld id c l = 0 := by
        rcases ih hnd.2 with h | ⟨x, hx, hid, _⟩
        · exact h
        · exact absurd (List.mem_map.mpr ⟨x, hx, hid.trans hy.1.symm⟩) hnd.1
      rw [h0]
      unfold removedOld pendingOld
      simp [hy]
    · have h1 : removedOld id c [y] = 0 := by
        unfold removedOld
        simp [hy]
      rw [h1, Nat.zero_add]
      rcases ih hnd.2 with h | ⟨x, hx, h⟩
      · exact .inl h
      · exact .inr ⟨x, List.mem_append_right _ hx, h⟩

/-- Nothing is added to the traces that were not updated since. -/
theorem old_next (hcc : r.CollectorClock time) {n : Nat} {c : Time} (hcn : c ≤ time n) (id : Id) :
    removedOld id c (r.state (n + 1)).world.removed + pendingOld id c (r.state (n + 1)).world.c.traces[id]? ≤
      removedOld id c (r.state n).world.removed + pendingOld id c (r.state n).world.c.traces[id]? := by
  rcases world_next (r.next n) with e | ⟨now1, now2, x, e⟩ | ⟨i, hv, e⟩
  · rw [e]
  · obtain ⟨now1, now2, x, e, hn1, hn2⟩ := hcc n (by
      rw [e]
      intro h
      have := congrArg List.length h
      change ((r.state n).world.received ++ [x]).length = _ at this
      simp at this)
    have hrem : (r.state (n + 1)).world.removed = (r.state n).world.removed := by rw [e]; rfl
    rw [hrem]
    refine Nat.add_le_add_left ?_ _
    cases h : (r.state (n + 1)).world.c.traces[id]? with
    | none => exact Nat.zero_le _
    | some t =>
      rw [e] at h
      rcases received_tree h with h1 | ⟨_, _, h1⟩
      · rw [h1]
      · have : ¬ t.updated < c := by tomega
        show (if t.updated < c then t.members.length else 0) ≤ _
        rw [if_neg this]
        exact Nat.zero_le _
  · obtain ⟨h1, hnd, h3⟩ := C44_other_fates (r.world n) hv
    have hrem : (r.state (n + 1)).world.removed = (r.state n).world.removed ++ ((r.state n).world.c.tick i).2 := by rw [e]; rfl
    have htr : (r.state (n + 1)).world.c.traces[id]? = ((r.state n).world.c.tick i).1.traces[id]? := by rw [e]; rfl
    rw [hrem, removedOld_append, htr, Nat.add_assoc]
    refine Nat.add_le_add_left ?_ _
    have hkeep : pendingOld id c ((r.state n).world.c.tick i).1.traces[id]? ≤ pendingOld id c (r.state n).world.c.traces[id]? := by
      cases h : ((r.state n).world.c.tick i).1.traces[id]? with
      | none => exact Nat.zero_le _
      | some t => rw [tick_keeps_tree hv h]
    rcases removedOld_once hnd id c with h | ⟨x, hx, rfl, hle⟩
    · omega
    · obtain ⟨h4, h5⟩ := h1 x hx
      rw [h5, h4]
      exact hle

theorem sum_for {w : World} (h : WInv w) (id : Id) (c : Time) : removedOld id c w.removed + pendingOld id c w.c.traces[id]? ≤ (receivedFor id w.received).length := by
  have hcons := (h.conserved.filter fun s => s.trace == id).length_eq
  rw [List.filter_append, List.filter_append, List.length_append, List.length_append, List.filter_filter] at hcons
  have e : ((w.received.filter fun s => (s.trace == id) && decide (Traced s)).length) = (receivedFor id w.received).length := by
    unfold receivedFor
    congr 1
    exact List.filter_congr fun s _ => Bool.and_comm _ _
  rw [e] at hcons
  have hrem : removedOld id c w.removed ≤ ((w.removed.flatMap fun r => r.tree.members).filter fun s => s.trace == id).length := by
    have key : ∀ l : List Removal, (∀ x ∈ l, x ∈ w.removed) → removedOld id c l ≤ ((l.flatMap fun r => r.tree.members).filter fun s => s.trace == id).length := by
      intro l hl
      induction l with
      | nil => exact Nat.le_refl _
      | cons x l ih =>
        have ih := ih fun y hy => hl y (List.mem_cons_of_mem _ hy)
        rw [show x :: l = [x] ++ l from rfl, removedOld_append, List.flatMap_append, List.filter_append, List.length_append]
        refine Nat.add_le_add ?_ ih
        by_cases hx : x.id = id ∧ x.tree.updated < c
        · have hall : (x.tree.members.filter fun s => s.trace == id) = x.tree.members :=
            List.filter_eq_self.mpr fun s hs => by rw [((h.gone x (hl x List.mem_cons_self)).members s hs).1, hx.1]; simp
          unfold removedOld
          simp [hx, hall]
        · unfold removedOld
          simp [hx]
    exact key _ fun x hx => hx
  have hpend : pendingOld id c w.c.traces[id]? ≤ ((pendingMembers w.c).filter fun s => s.trace == id).length := by
    cases ht : w.c.traces[id]? with
    | none => exact Nat.zero_le _
    | some t =>
      have hall : (t.members.filter fun s => s.trace == id) = t.members :=
        List.filter_eq_self.mpr fun s hs => by rw [((h.trees id t ht).members s hs).1]; simp
      have hmem := (mem_range (isRange_refl w.c.traces) (k := id) (v := t)).mpr ht
      have hsub : t.members.Sublist (pendingMembers w.c) := by
        unfold pendingMembers
        obtain ⟨l1, l2, hl⟩ := List.append_of_mem hmem
        rw [hl, List.flatMap_append, List.flatMap_cons]
        exact (List.sublist_append_left _ _).trans (List.sublist_append_right _ _)
      have := (hsub.filter fun s => s.trace == id).length_le
      rw [hall] at this
      refine Nat.le_trans ?_ this
      unfold pendingOld
      dsimp only
      split <;> omega
  omega

theorem old_bound (hc : r.Clock time) (hcc : r.CollectorClock time) {J n : Nat} (h : J ≤ n) (id : Id) :
    removedOld id (time J) (r.state n).world.removed ≤ (receivedFor id (r.state J).world.received).length := by
  have : removedOld id (time J) (r.state n).world.removed + pendingOld id (time J) (r.state n).world.c.traces[id]? ≤ (receivedFor id (r.state J).world.received).length := by
    induction h with
    | refl => exact sum_for (reachable_inv (r.world J)) id _
    | @step n h ih => exact Nat.le_trans (old_next hcc (hc.le h) id) ih
  omega

/-- If for each id the traces have as many spans as the list, then all of them have. -/
theorem sum_ids (c : Time) (n : Nat) : ∀ (l : List Removal) (R : List Span), l.length ≤ n → (∀ x ∈ l, x.tree.updated < c) → (∀ id, removedOld id c l ≤ (receivedFor id R).length) →
    (l.flatMap fun x => x.tree.members).length ≤ R.length := by
  induction n with
  | zero =>
    intro l R hl _ _
    rw [List.eq_nil_of_length_eq_zero (Nat.le_zero.mp hl)]
    exact Nat.zero_le _
  | succ n ih =>
    intro l R hl hold h
    cases l with
    | nil => exact Nat.zero_le _
    | cons x l =>
      have hsplit : ∀ l : List Removal, (∀ y ∈ l, y.tree.updated < c) → (l.flatMap fun x => x.tree.members).length = removedOld x.id c l + ((l.filter fun y => decide (y.id ≠ x.id)).flatMap fun x => x.tree.members).length := by
        intro l hl
        induction l with
        | nil => rfl
        | cons y l ih =>
          have ih := ih fun z hz => hl z (List.mem_cons_of_mem _ hz)
          have hy := hl y List.mem_cons_self
          rw [show y :: l = [y] ++ l from rfl, removedOld_append, List.flatMap_append, List.length_append, List.filter_append, List.flatMap_append, List.length_append, ih]
          have : ([y].flatMap fun x => x.tree.members).length = removedOld x.id c [y] + (([y].filter fun y => decide (y.id ≠ x.id)).flatMap fun x => x.tree.members).length := by
            unfold removedOld
            by_cases e : y.id = x.id
            · simp [e, hy]
            · simp [e]
          omega
      have hR : R.length = (R.filter fun s => decide (Traced s) && (s.trace == x.id)).length + (R.filter fun s => !(decide (Traced s) && (s.trace == x.id))).length :=
        List.length_eq_length_filter_add _
      rw [hsplit _ hold]
      have h1 := h x.id
      have h2 := ih ((x :: l).filter fun y => decide (y.id ≠ x.id)) (R.filter fun s => !(decide (Traced s) && (s.trace == x.id))) (by
        rw [List.filter_cons_of_neg (by simp)]
        have := List.length_filter_le (fun y : Removal => decide (y.id ≠ x.id)) l
        rw [List.length_cons] at hl
        omega) (fun y hy => hold y (List.mem_filter.mp hy).1) (fun id => by
        by_cases e : id = x.id
        · subst e
          have : removedOld x.id c ((x :: l).filter fun y => decide (y.id ≠ x.id)) = 0 := by
            unfold removedOld
            rw [List.filter_filter, List.filter_eq_nil_iff.mpr]
            · rfl
            · intro y _
              simp only [Bool.and_eq_true, decide_eq_true_eq, not_and]
              intro h1 h2
              exact h2 h1.1
          rw [this]
          exact Nat.zero_le _
        · have e1 : removedOld id c ((x :: l).filter fun y => decide (y.id ≠ x.id)) = removedOld id c (x :: l) := by
            unfold removedOld
            rw [List.filter_filter]
            congr 2
            refine List.filter_congr fun y _ => ?_
            by_cases h1 : y.id = id
            · simp [h1, e]
            · simp [h1]
          have e2 : receivedFor id (R.filter fun s => !(decide (Traced s) && (s.trace == x.id))) = receivedFor id R := by
            unfold receivedFor
            rw [List.filter_filter]
            refine List.filter_congr fun s _ => ?_
            by_cases h1 : s.trace = id
            · simp [h1, e]
            · simp [h1]
          rw [e1, e2]
          exact h id)
      unfold receivedFor at h1
      omega

/-! ## What the sink gets -/

/-- Where a trace was removed. -/
theorem removal_at {b m : Nat} (h : b ≤ m) {x : Removal} (hx : x ∈ (r.state m).world.removed.drop (r.state b).world.removed.length) :
    ∃ (q : Nat) (i : TickInput), b ≤ q ∧ q < m ∧ i.Valid (r.state q).world.c ∧ (r.state (q + 1)).world = (r.state q).world.tick i ∧ x ∈ ((r.state q).world.c.tick i).2 := by
  induction h with
  | refl => rw [List.drop_length] at hx; cases hx
  | @step m h ih =>
    have old : x ∈ (r.state m).world.removed.drop (r.state b).world.removed.length → ∃ (q : Nat) (i : TickInput), b ≤ q ∧ q < m + 1 ∧ i.Valid (r.state q).world.c ∧
        (r.state (q + 1)).world = (r.state q).world.tick i ∧ x ∈ ((r.state q).world.c.tick i).2 := fun hx => by
      obtain ⟨q, i, h1, h2, h3⟩ := ih hx
      exact ⟨q, i, h1, Nat.lt_succ_of_lt h2, h3⟩
    rcases world_next (r.next m) with e | ⟨now1, now2, x, e⟩ | ⟨i, hv, e⟩
    · rw [e] at hx; exact old hx
    · rw [e] at hx; exact old hx
    · rw [e] at hx
      change x ∈ ((r.state m).world.removed ++ ((r.state m).world.c.tick i).2).drop _ at hx
      rw [List.drop_append_of_le_length (removed_prefix r h).length_le] at hx
      rcases List.mem_append.mp hx with hx | hx
      · exact old hx
      · exact ⟨m, i, h, Nat.lt_succ_self m, hv, e, hx⟩

theorem emittedOf_filter (l : List Removal) : emittedOf (l.filter fun x => match x.fate with | .emitted _ => true | _ => false) = emittedOf l := by
  unfold emittedOf
  induction l with
  | nil => rfl
  | cons x l ih =>
    rw [List.filter_cons]
    cases hf : x.fate with
    | emitted out => simp [hf, ih]
    | _ => simp [hf, ih]

theorem sum_sublist {l l' : List Nat} (h : l.Sublist l') : l.sum ≤ l'.sum := by
  induction h with
  | slnil => exact Nat.le_refl _
  | cons a h ih => rw [List.sum_cons]; omega
  | cons_cons a h ih => rw [List.sum_cons, List.sum_cons]; omega

/-- What the collector finishes between two moments: it was received 8 seconds before the second one, and not before the moment at which everything had been received that left it until the first. -/
theorem even_between (hc : r.Clock time) (hcc : r.CollectorClock time) (hfew : ∀ q, counted (r.state q).world.c.traces.toList < 40000) {a b m J : Nat} (hbm : b ≤ m + 1) (hJ : J ≤ m + 1)
    (hlate : time (m + 1) < time J + 8000000000)
    (hgone : ∀ q, b ≤ q → ∀ id, receivedFor id (r.state a).world.received ≠ [] → (r.state q).world.c.traces[id]? = none) :
    2 * (convertTraces conv k (emittedOf (r.state (m + 1)).world.removed)).flatten.length ≤
      2 * (convertTraces conv k (emittedOf (r.state b).world.removed)).flatten.length + 3 * (r.collected J - r.collected a) := by
  obtain ⟨l, hl⟩ := removed_prefix r hbm
  obtain ⟨E, hE⟩ : ∃ E, E = l.filter fun x => match x.fate with | .emitted _ => true | _ => false := ⟨_, rfl⟩
  have hEl : emittedOf E = emittedOf l := hE ▸ emittedOf_filter l
  have hsub : E.Sublist l := hE ▸ List.filter_sublist
  have hfacts : ∀ x ∈ E, x.tree.updated < time J ∧ receivedFor x.id (r.state a).world.received = [] := by
    intro x hx
    have hxl := hsub.subset hx
    obtain ⟨q, i, h1, h2, hv, e, hq⟩ := removal_at hbm (x := x) (by rw [← hl, List.drop_left]; exact hxl)
    obtain ⟨h3, _, _⟩ := C44_other_fates (r.world q) hv
    have hp := (h3 x hq).1
    have hidle := (C44_emitted_at_tick (r.world q) hv hp).1
    rw [hE] at hx
    have hfate := (List.mem_filter.mp hx).2
    have hout : ∃ out, x.fate = .emitted out := by
      cases hf : x.fate with
      | emitted out => exact ⟨out, rfl⟩
      | _ => rw [hf] at hfate; cases hfate
    obtain ⟨out, hout⟩ := hout
    obtain ⟨_, _, hidle, _⟩ := hidle.mp ⟨out, by rw [← hout]; exact hq⟩
    have hbt : Spec.bufferTime (counted (r.state q).world.c.traces.toList) = 8000000000 := if_pos (hfew q)
    rw [hbt] at hidle
    unfold Idle at hidle
    have hclock : i.now2 ≤ time (q + 1) := by
      have := hc.collector (q + 1)
      rw [e] at this
      exact this
    have hnow := hv.clock
    have := hc.le (show q + 1 ≤ m + 1 by omega)
    refine ⟨by tomega, Classical.byContradiction fun hne => ?_⟩
    rw [hgone q h1 x.id hne] at hp
    cases hp
  have hlen : (E.flatMap fun x => x.tree.members).length ≤ ((r.state J).world.received.drop (r.state a).world.received.length).length := by
    refine sum_ids (time J) E.length E _ (Nat.le_refl _) (fun x hx => (hfacts x hx).1) fun id => ?_
    by_cases hid : ∃ x ∈ E, x.id = id
    · obtain ⟨x, hx, rfl⟩ := hid
      have h1 := old_bound hc hcc hJ x.id
      have h2 : removedOld x.id (time J) E ≤ removedOld x.id (time J) (r.state (m + 1)).world.removed := by
        have hs : E.Sublist (r.state (m + 1)).world.removed := hl ▸ hsub.trans (List.sublist_append_right _ _)
        unfold removedOld
        exact sum_sublist ((hs.filter _).map _)
      have h3 := (hfacts x hx).2
      by_cases haJ : a ≤ J
      · obtain ⟨D, hD⟩ := (flow r haJ).2
        rw [← hD] at h1 ⊢
        rw [List.drop_left]
        have e : receivedFor x.id ((r.state a).world.received ++ D) = receivedFor x.id (r.state a).world.received ++ receivedFor x.id D := List.filter_append ..
        rw [e, h3, List.nil_append] at h1
        omega
      · have := receivedFor_mono r (show J ≤ a by omega) x.id
        rw [h3] at this
        simp only [List.length_nil] at this
        omega
    · have : removedOld id (time J) E = 0 := by
        unfold removedOld
        rw [List.filter_eq_nil_iff.mpr]
        · rfl
        · intro x hx
          simp only [decide_eq_true_eq, not_and]
          intro e
          exact absurd ⟨x, hx, e⟩ hid
      rw [this]
      exact Nat.zero_le _
  rw [List.length_drop] at hlen
  have h1 := emitted_sizes (r.world (m + 1)) E (fun x hx => by rw [← hl]; exact List.mem_append_right _ (hsub.subset hx))
  have h2 := convertTraces_le (conv := conv) (emittedOf l) (convAfter conv k (emittedOf (r.state b).world.removed))
  rw [← hl, emittedOf_append, convertTraces_append, List.flatten_append, List.length_append]
  rw [hEl] at h1
  unfold Execution.collected
  omega

/-- What the sink gets in a period, compared with what the collector got in one of about this length that ended 8 seconds before. -/
theorem even_sunk (hc : r.Clock time) (hcc : r.CollectorClock time) {gap period delay : Time} (hgap : 0 ≤ gap) (hg : Gathers r time gap) (ht : r.CollectorTicks time period) (hd : r.Responsive time delay)
    (h0 : (r.state 0).world.received = []) (hfew : ∀ q, counted (r.state q).world.c.traces.toList < 40000) {n m : Nat} (hnm : n ≤ m) :
    ∃ a J, a ≤ n ∧ time (n + 1) ≤ time (a + 1) + 8000000000 + gap + period + delay ∧ (∀ j, J = j + 1 → time j + 8000000000 ≤ time (m + 1)) ∧
      2 * (r.sunk (m + 1) - r.sunk n) ≤ 3 * (r.collected J - r.collected a) := by
  have hall : ∀ i, r.sunk i ≤ (convertTraces conv k (emittedOf (r.state i).world.removed)).flatten.length := by
    intro i
    obtain ⟨y, hy⟩ := (C61_prefix (r.reach i)).1
    unfold Execution.sunk
    rw [← hy, List.flatten_append, List.length_append]
    omega
  have hdelay : 0 ≤ delay := by
    obtain ⟨q, h1, h2, _⟩ := hd 0
    have := hc.le h1
    tomega
  have hperiod := period_pos hc ht
  obtain ⟨J, hJ, hlate, hfirst⟩ : ∃ J, J ≤ m + 1 ∧ time (m + 1) < time J + 8000000000 ∧ ∀ j, J = j + 1 → time j + 8000000000 ≤ time (m + 1) := by
    by_cases hq : time 0 + 8000000000 ≤ time (m + 1)
    · obtain ⟨j, hj, hqj, hlast⟩ := last_before (Q := fun j => time j + 8000000000 ≤ time (m + 1)) (m := m + 1) hq
      have hqj : time j + 8000000000 ≤ time (m + 1) := hqj
      have hjm : j ≤ m := Nat.le_of_lt_succ (Nat.lt_of_le_of_ne hj fun (e : j = m + 1) => by rw [e] at hqj; tomega)
      exact ⟨j + 1, by omega, by have := hlast (j + 1) (by omega) (by omega); tomega, fun i e => by cases e; exact hqj⟩
    · exact ⟨0, Nat.zero_le _, by tomega, fun j e => by cases e⟩
  by_cases hq : time 0 + 8000000000 + gap + period + delay < time (n + 1)
  · obtain ⟨a, ha, hqa, hlast⟩ := last_before (Q := fun j => time j + 8000000000 + gap + period + delay < time (n + 1)) (m := n) hq
    refine ⟨a, J, ha, ?_, hfirst, ?_⟩
    · rcases Nat.lt_or_eq_of_le ha with h | rfl
      · have := hlast (a + 1) (by omega) h
        tomega
      · tomega
    · obtain ⟨b, hb, htb, hgone⟩ := gone_after hc hgap hg ht a
      obtain ⟨q, hbq, htq, hdel, _⟩ := C127_delivered hd b
      have hqn : q ≤ n := by
        have : q < n + 1 := Classical.byContradiction fun h => by
          have := hc.le (show n + 1 ≤ q by omega)
          tomega
        omega
      have h1 := even_between hc hcc hfew (show b ≤ m + 1 by omega) hJ hlate hgone
      obtain ⟨_, _, inv⟩ := (r.reach q).sentInv
      obtain ⟨_, _, _, _, _, hrec⟩ := inv.later hqn
      obtain ⟨y, hy⟩ := hdel.trans hrec
      have h2 : (convertTraces conv k (emittedOf (r.state b).world.removed)).flatten.length ≤ r.sunk n := by
        unfold Execution.sunk
        rw [← hy, List.flatten_append, List.length_append]
        omega
      have h3 := hall (m + 1)
      omega
  · refine ⟨0, J, Nat.zero_le _, ?_, hfirst, ?_⟩
    · have := hc.mono 0
      tomega
    · have h1 := even_between hc hcc hfew (a := 0) (b := 0) (Nat.zero_le (m + 1)) hJ hlate (fun q _ id hne => absurd (by rw [h0]; rfl) hne)
      have h2 : (convertTraces conv k (emittedOf (r.state 0).world.removed)).flatten.length = 0 := by
        have h3 := convertTraces_le (conv := conv) (emittedOf (r.state 0).world.removed) k
        have h4 := emitted_sizes (r.world 0) _ (fun x hx => hx)
        have h5 := (reachable_inv (r.world 0)).conserved.length_eq
        rw [h0, List.length_append, List.length_append] at h5
        simp only [List.filter_nil, List.length_nil] at h5
        omega
      have h3 := hall (m + 1)
      omega

/-! ## Nothing is discarded -/

theorem collected_step (n : Nat) : r.collected (n + 1) ≤ r.collected n + 1 := by
  unfold Execution.collected
  rcases world_next (r.next n) with e | ⟨now1, now2, x, e⟩ | ⟨i, hv, e⟩
  · rw [e]; omega
  · rw [e]
    show ((r.state n).world.received ++ [x]).length ≤ _
    simp
  · rw [e]
    exact Nat.le_succ _

/-- C150: no batch is discarded if fewer than 40000 spans wait at any time, fewer than 4000 are received in a short period, and the transport is fast enough for such a stream. -/
theorem C150_gathered (hc : r.Clock time) (hk : r.SinkClock time) (hcc : r.CollectorClock time) {gap period delay limit every : Time} (hgap : 0 ≤ gap) (hg : Gathers r time gap)
    (ht : r.CollectorTicks time period) (hd : r.Responsive time delay) (h0 : 0 ≤ limit) (hl : r.SendsIn time limit) (hi : (r.state 0).world.received = []) (hev : 0 < every)
    (hle : limit * (5400000000 + 2000 * every) < 3600000000000 * every) (hf1 : AtMost r.collected time 39999 (8000000000 + gap + period) every)
    (hf2 : AtMost r.collected time 3999 (gap + period + delay) every) (m : Nat) : (r.state m).NoneDiscarded := by
  obtain ⟨hidle, hnone⟩ := starts_idle hi
  have hfew : ∀ q, counted (r.state q).world.c.traces.toList < 40000 := fun q => Nat.lt_succ_of_le (few_wait hc hgap hg ht hi hev hf1 q)
  refine none_discarded_sink hc hk (every := 2 * every) (q := 3) h0 (by tomega) (by decide) ?_ hl hidle hnone (fun n m hnm => ?_) m
  · have e1 : (1800000000 : Int) * 3 + 1000 * (2 * every) = 5400000000 + 2000 * every := by tomega
    have e2 : (1800000000000 : Int) * (2 * every) = 3600000000000 * every := by tomega
    rw [e1, e2]
    exact hle
  · obtain ⟨a, J, ha, hta, hJ, hsunk⟩ := even_sunk hc hcc hgap hg ht hd hi hfew hnm
    by_cases hx : r.collected J ≤ r.collected a + 4000
    · exact .inl (by omega)
    · right
      have hmono : ∀ {i j : Nat}, i ≤ j → r.collected i ≤ r.collected j := fun {i j} h => by
        obtain ⟨y, hy⟩ := (flow r h).2
        unfold Execution.collected
        rw [← hy, List.length_append]
        omega
      match J, hJ, hsunk, hx with
      | 0, _, _, hx => have := hmono (Nat.zero_le a); omega
      | 1, hJ, hsunk, hx =>
        have h1 := collected_step (r := r) 0
        have := hmono (Nat.zero_le a)
        simp only [Nat.zero_add] at h1
        omega
      | j + 2, hJ, hsunk, hx =>
        have h1 : r.collected (j + 2) ≤ r.collected (j + 1) + 1 := collected_step (j + 1)
        have h2 := hJ (j + 1) rfl
        have haj : a ≤ j := Classical.byContradiction fun h => by
          have := hmono (show j + 1 ≤ a by omega)
          omega
        have h3 := (hf2 a j haj).resolve_left (by omega)
        have h4 : 2 * every * (((r.sunk (m + 1) - r.sunk n : Nat) : Int) - 6001) ≤ 3 * (every * ((r.collected (j + 1) : Int) - r.collected a - (3999 : Nat))) := by
          have e1 : 2 * every * (((r.sunk (m + 1) - r.sunk n : Nat) : Int) - 6001) = every * (2 * (((r.sunk (m + 1) - r.sunk n : Nat) : Int) - 6001)) := by
            rw [Int.mul_comm 2 every, Int.mul_assoc]
          have e2 : 3 * (every * ((r.collected (j + 1) : Int) - r.collected a - (3999 : Nat))) = every * (3 * ((r.collected (j + 1) : Int) - r.collected a - (3999 : Nat))) := Int.mul_left_comm _ _ _
          rw [e1, e2]
          exact Int.mul_le_mul_of_nonneg_left (by omega) (by tomega)
        generalize every * ((r.collected (j + 1) : Int) - r.collected a - (3999 : Nat)) = X at *
        generalize 2 * every * (((r.sunk (m + 1) - r.sunk n : Nat) : Int) - 6001) = Y at *
        tomega

/-- C150, partial: the spans of a trace are posted within `gap`. No batch is discarded if fewer than 40000 spans are posted in 8 seconds, the gap, the period of the ticks and the delays, fewer than
4000 in a period that is shorter by 8 seconds, and the transport is fast enough for such a stream. Missing: larger loads that Datadog could take, see `C150_burst`. -/
theorem C150_even_partial (hc : r.Clock time) (hk : r.SinkClock time) (hcc : r.CollectorClock time) {gap period delay limit every : Time} (hgap : 0 ≤ gap) (hg : r.Together time gap)
    (ht : r.CollectorTicks time period) (hd : r.Responsive time delay) (h0 : 0 ≤ limit) (hl : r.SendsIn time limit) (hi : r.outcomes 0 = []) (hev : 0 < every)
    (hle : limit * (5400000000 + 2000 * every) < 3600000000000 * every) (hf1 : AtMost r.accepted time 39999 (8000000000 + gap + period + 2 * delay) every)
    (hf2 : AtMost r.accepted time 3999 (gap + period + 3 * delay) every) (m : Nat) : (r.state m).NoneDiscarded := by
  have hdelay : 0 ≤ delay := by
    obtain ⟨q, h1, h2, _⟩ := hd 0
    have := hc.le h1
    tomega
  refine C150_gathered hc hk hcc (gap := gap + delay) (by tomega) (gathers_of_together hc hgap hd hi hg) ht hd h0 hl (received_none hi) hev hle (C149_arrivals hc hd hev hi ?_) (C149_arrivals hc hd hev hi ?_) m
  · have e : 8000000000 + (gap + delay) + period + delay = 8000000000 + gap + period + 2 * delay := by tomega
    rw [e]; exact hf1
  · have e : gap + delay + period + delay + delay = gap + period + 3 * delay := by tomega
    rw [e]; exact hf2

/-- A bound for a period is one for a longer period. -/
theorem atMost_longer {count : Nat → Nat} {every period period' : Time} {burst burst' : Nat} (h : AtMost count time burst period every) (hb : burst ≤ burst')
    (hp : period' ≤ period + every * ((burst' - burst : Nat) : Int)) : AtMost count time burst' period' every := by
  intro n m hnm
  rcases h n m hnm with h | h
  · exact .inl (by omega)
  · right
    have e : every * ((count (m + 1) : Int) - count n - burst) = every * ((count (m + 1) : Int) - count n - burst') + every * ((burst' - burst : Nat) : Int) := by
      rw [← Int.mul_add]
      congr 1
      omega
    rw [e] at h
    tomega

/-- C150, partial: 4800 spans are posted per second and at most 500 at once, those of a trace within 0.1 seconds; the ticks are 0.1 seconds apart, the work of the goroutines is done in 0.01 seconds, and
a call of the transport takes 0.1 seconds at most. Then nothing is discarded. With 5000 spans per second it is, see `C150_burst`. -/
theorem C150_rate_partial (hc : r.Clock time) (hk : r.SinkClock time) (hcc : r.CollectorClock time) (hg : r.Together time 100000000) (ht : r.CollectorTicks time 100000000)
    (hd : r.Responsive time 10000000) (hl : r.SendsIn time 100000000) (hi : r.outcomes 0 = []) (hf : AtMost r.accepted time 500 0 208334) (m : Nat) : (r.state m).NoneDiscarded :=
  C150_even_partial hc hk hcc (by decide) hg ht hd (by decide) hl hi (by decide) (by decide) (atMost_longer hf (by decide) (by decide)) (atMost_longer hf (by decide) (by decide)) m

end

/-- For example, two pieces of a trace are posted at once. -/
theorem C150_pieces : ∃ (r : Execution plainConverter ()) (time : Nat → Time), r.AtOnce time ∧ r.outcomes 0 = [] ∧ r.outcomes 2 = [.spans [rootPiece], .spans [childPiece]] ∧
    r.Together time 100000000 ∧ AtMost r.accepted time 500 0 208334 ∧ ∀ m, (r.state m).NoneDiscarded := by
  have a0 := System.Reachable.init (conv := plainConverter) (k := ()) 0
  have a1 := System.Reachable.request (.spans [rootPiece]) a0
  have a2 := System.Reachable.request (.spans [childPiece]) a1
  obtain ⟨r2, time2, h2, e2, o2⟩ := atOnce_from a2
  obtain ⟨r1, time1, h1, o1, e1, t1, n1⟩ := atOnce_request (.spans [childPiece]) a1 h2 (o2 0) e2
  obtain ⟨r, time, h, o0, e0, t0, n0⟩ := atOnce_request (.spans [rootPiece]) a0 h1 o1 e1
  have hend : ∀ m, r.outcomes (m + 2) = [.spans [rootPiece], .spans [childPiece]] := fun m => by rw [(n0 (m + 1)).1, (n1 m).1, o2]; rfl
  have hone : r.outcomes 1 = [.spans [rootPiece]] := by rw [(n0 0).1, o1]; rfl
  have ht : r.Together time 100000000 := fun j n id hj _ hne => by
    have hmono := h.clock.le (Nat.zero_le j)
    match n, hne with
    | 0, _ => have : time 1 = time 0 := by rw [(n0 0).2, t0]
              show time 1 ≤ _
              tomega
    | 1, _ => have : time 2 = time 0 := by rw [(n0 1).2, (n1 0).2, t0, t1]
              show time 2 ≤ _
              tomega
    | n + 2, hne => exact absurd (by rw [hend n, show n + 2 + 1 = (n + 1) + 2 from rfl, hend (n + 1)]) hne
  have hf : AtMost r.accepted time 500 0 208334 := fun n m _ => .inl (by
    have : r.accepted (m + 1) ≤ 2 := by
      unfold Execution.accepted
      cases m with
      | zero => rw [hone]; decide
      | succ m => rw [hend m]; decide
    omega)
  exact ⟨r, time, h, o0, hend 0, ht, hf, C150_rate_partial h.clock h.sinkClock h.collectorClock ht h.ticks
    (fun n => by obtain ⟨q, h1, h2, h3⟩ := h.works n; exact ⟨q, h1, by tomega, h3⟩)
    (fun n hb => by obtain ⟨q, h1, h2, h3⟩ := h.sends n hb; exact ⟨q, h1, by tomega, h3⟩) o0 hf⟩

end Verif
