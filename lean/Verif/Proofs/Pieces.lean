import Verif.Spec.Pieces
import Verif.Props.FairCluster
import Verif.Props.Posted
import Verif.Props.Cluster
import Mathlib.Data.List.Perm.Subperm

/-!
# Helpers for C106
-/

namespace Verif

open Spec

theorem subperm_map {α β : Type} (f : α → β) {a b : List α} (h : List.Subperm a b) : List.Subperm (a.map f) (b.map f) := by
  obtain ⟨c, h1, h2⟩ := h
  exact ⟨c.map f, h1.map f, h2.map f⟩

/-- What was pushed is a part of what was accepted. -/
theorem http_log {cap : Nat} {outs : List Parsed} {log : List (Nat × Span)} {taken : List Span} {h : Http} (hr : Http.Reachable cap outs log taken h) :
    List.Subperm (log.map (·.2)) (acceptedSpans outs) := by
  obtain ⟨hl, hall, hlt, _⟩ := C33_all_or_nothing hr
  refine (log_perm outs.length log hlt).symm.subperm.trans ?_
  have e : acceptedSpans outs = (List.range outs.length).flatMap fun i => match outs[i]? with | some (Parsed.spans l) => l | _ => [] :=
    (flatMap_range _ outs _ (fun i o hi => by rw [hi]; cases o <;> rfl)).symm
  rw [e]
  have sub : ∀ (l : List Nat) (f g : Nat → List Span), (∀ i ∈ l, (f i).Sublist (g i)) → (l.flatMap f).Sublist (l.flatMap g) := by
    intro l f g h
    induction l with
    | nil => exact .slnil
    | cons x l ih =>
      rw [List.flatMap_cons, List.flatMap_cons]
      exact (h x List.mem_cons_self).append (ih fun i hi => h i (List.mem_cons_of_mem _ hi))
  refine (sub _ _ _ fun i hi => ?_).subperm
  rw [List.mem_range] at hi
  have ho := List.getElem?_eq_getElem hi
  have hao := hall i _ _ ho (List.getElem?_eq_getElem (by rw [hl]; exact hi))
  rw [ho]
  generalize outs[i] = o at hao
  generalize h.conns[i]'(by rw [hl]; exact hi) = cn at hao
  generalize pushedBy i log = pushed at hao
  cases hao with
  | pushing => exact List.sublist_append_left _ _
  | accepted => exact List.Sublist.refl _
  | failing => exact List.nil_sublist _
  | rejected => exact List.nil_sublist _
  | panicked => exact List.nil_sublist _
  | waiting => exact List.nil_sublist _



variable {κ : Type} {conv : κ → Span → Option Span × κ} {k : κ} {part : List UInt8 → Nat} {assignment : List (List Nat)}

/-- What the proxies wrote was posted. -/
theorem produced_accepted : ∀ (gs : List Ghost) (ns : List (Instance κ)), gs.length = ns.length → (∀ (i : Nat) n g, ns[i]? = some n → gs[i]? = some g → FrontInv g.outs g.log g.prod g.fly g.rest n.front) →
    List.Subperm ((gs.flatMap (·.prod)).map (·.1)) (acceptedSpans (gs.flatMap (·.outs))) := by
  intro gs
  induction gs with
  | nil => intro ns _ _; exact List.Subperm.refl _
  | cons g gs ih =>
    intro ns hl hi
    cases ns with
    | nil => cases hl
    | cons m ns =>
      have ih := ih ns (by simpa using hl) (fun i n g hn hg => hi (i + 1) n g (by simpa using hn) (by simpa using hg))
      have finv := hi 0 m g rfl rfl
      unfold acceptedSpans at ih ⊢
      rw [List.flatMap_cons, List.flatMap_cons, List.map_append, List.flatMap_append]
      refine List.Subperm.append ?_ ih
      have hm : List.Subperm (g.prod.map (·.1)) (m.front.pool.sent.map (·.1)) :=
        (((List.sublist_append_left g.prod (g.fly ++ g.rest)).map (·.1)).subperm).trans (finv.msgs.map (·.1)).subperm
      have hlog := (C33_all_or_nothing finv.http).2.2.2
      exact (hm.trans (by rw [hlog]; exact (List.sublist_append_left _ _).subperm)).trans (http_log finv.http)

/-- The topic has nothing of a trace that was not posted. -/
theorem settled_topic (hnd : assignment.flatten.Nodup) {outs : List Parsed} {c : Cluster κ} (h : Cluster.Settled conv k part assignment outs c) (t : Id) :
    List.Subperm (spansOfTrace t ((c.topic (partitionOf part t)).filterMap decodeKafkaMessage)) ((spansOfTrace t (acceptedSpans outs)).map Span.withTags) := by
  obtain ⟨gs, inv⟩ := h.inv (List.pairwise_flatten.mp hnd).1
  refine (inv.inTopic t).subperm.trans ?_
  have hsub := produced_accepted gs c.instances inv.length (fun i n g hn hg => (inv.inst i n g hn hg).1)
  have hout : (acceptedSpans (gs.flatMap (·.outs))).Perm (acceptedSpans outs) := inv.outs.flatMap_right _
  have hfin : List.Subperm (((gs.flatMap (·.prod)).map (·.1)).filter fun s => s.trace = t) (spansOfTrace t (acceptedSpans outs)) := (hsub.trans hout.subperm).filter _
  have := subperm_map Span.withTags hfin
  refine List.Subperm.trans (List.Perm.subperm (.of_eq ?_)) this
  rw [List.filter_map, List.filter_map, List.map_map]
  rfl

variable {r : ClusterExecution conv k part assignment}

theorem flatMap_range_update {β : Type} {N i : Nat} (hi : i < N) (f : Nat → List β) (x : β) :
    ((List.range N).flatMap fun j => if j = i then f j ++ [x] else f j).Perm ((List.range N).flatMap f ++ [x]) := by
  have h1 : ((List.range N).flatMap fun j => if j = i then f j ++ [x] else f j).Perm ((List.range N).flatMap fun j => if i = j then x :: f j else f j) := by
    have : ∀ l : List Nat, (l.flatMap fun j => if j = i then f j ++ [x] else f j).Perm (l.flatMap fun j => if i = j then x :: f j else f j) := by
      intro l
      induction l with
      | nil => exact .refl _
      | cons y l ih =>
        rw [List.flatMap_cons, List.flatMap_cons]
        refine List.Perm.append ?_ ih
        by_cases h : y = i
        · subst h
          rw [if_pos rfl, if_pos rfl]
          exact List.perm_append_singleton _ _
        · rw [if_neg h, if_neg fun e => h e.symm]
    exact this _
  exact h1.trans ((perm_flatMap_if List.nodup_range (List.mem_range.mpr hi)).trans (List.perm_append_singleton _ _).symm)

/-- Without foreign messages, the proxies are as in C69. -/
theorem ClusterExecution.Closed.settled (hc : r.Closed) (n : Nat) : ∃ outs, Cluster.Settled conv k part assignment outs (r.state n) ∧ outs.Perm ((List.range assignment.length).flatMap (r.requests n)) ∧
    (r.state n).instances.length = assignment.length := by
  induction n with
  | zero =>
    obtain ⟨now, h⟩ := r.start
    refine ⟨[], by rw [h]; exact .init now, ?_, by rw [h]; simp [Cluster.assigned]⟩
    have : ((List.range assignment.length).flatMap (r.requests 0)) = [] := List.flatMap_eq_nil_iff.mpr fun i _ => r.noRequests i
    rw [this]
  | succ n ih =>
    obtain ⟨outs, h1, h2, h3⟩ := ih
    have hn := r.next n
    have hcl := hc n
    have hlen := hn.length
    generalize r.state (n + 1) = c' at hn hcl hlen
    generalize r.requests (n + 1) = q' at hn
    generalize r.state n = c at *
    generalize r.requests n = q at hn h2
    refine Exists.imp (fun outs h => ⟨h.1, h.2, hlen.trans h3⟩) (p := fun outs => Cluster.Settled conv k part assignment outs c' ∧ outs.Perm ((List.range assignment.length).flatMap q')) ?_
    cases hn with
    | step hs => exact ⟨outs, .step h1 hs, h2⟩
    | request o hi => exact ⟨outs ++ [o], .request o h1 hi, (h2.append_right _).trans (flatMap_range_update (by rw [← h3]; exact (List.getElem?_eq_some_iff.mp hi).1) _ o).symm⟩
    | foreign p v => exact absurd rfl (hcl p v)
    | stay => exact ⟨outs, h1, h2⟩

theorem acceptedSpans_perm {a b : List Parsed} (h : a.Perm b) : (acceptedSpans a).Perm (acceptedSpans b) := h.flatMap_right _

/-- The collector has nothing of a trace that was not posted. -/
theorem Closed.received (hc : r.Closed) (hnd : assignment.flatten.Nodup) {i : Nat} {s : Nat → Instance κ} (hi : r.Proxy i s) {ps : List Nat} (hps : assignment[i]? = some ps) {t : Id} (ht : partitionOf part t ∈ ps) (m : Nat) :
    List.Subperm (receivedFor t (s m).back.world.received) ((r.posted t m).map Span.withTags) := by
  obtain ⟨outs, h1, h2, _⟩ := hc.settled m
  have hpre := C69_order hnd h1 (hi m) hps t ht
  have hs : List.Sublist (receivedFor t (s m).back.world.received) (spansOfTrace t (s m).back.world.received) := by
    unfold receivedFor spansOfTrace
    rw [show (fun s : Span => decide (Traced s) && s.trace == t) = fun s => (decide (Traced s) && decide (s.trace = t)) from funext fun s => by simp [beq_eq_decide], ← List.filter_filter]
    exact List.filter_sublist
  refine (hs.trans hpre.sublist).subperm.trans ((settled_topic hnd h1 t).trans ?_)
  unfold ClusterExecution.posted
  exact (((acceptedSpans_perm h2).filter _).map _).subperm

/-- The other collectors have nothing of it. -/
theorem Closed.elsewhere (hc : r.Closed) (hnd : assignment.flatten.Nodup) {i j : Nat} {s : Nat → Instance κ} (hj : r.Proxy j s) {ps : List Nat} (hps : assignment[i]? = some ps) {t : Id} (ht : partitionOf part t ∈ ps)
    (hij : j ≠ i) (m : Nat) : receivedFor t (s m).back.world.received = [] := by
  obtain ⟨outs, h1, _⟩ := hc.settled m
  unfold receivedFor
  refine List.filter_eq_nil_iff.mpr fun x hx hxt => ?_
  obtain ⟨qs, hqs, hq⟩ := C69_local hnd h1 (hj m) hx
  simp only [Bool.and_eq_true, decide_eq_true_eq, beq_iff_eq] at hxt
  rw [hxt.2] at hq
  exact hij (flatten_index hnd hqs hps hq ht)

end Verif
