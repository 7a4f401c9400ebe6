import Verif.Props.Cluster
import Verif.Props.Oversize

/-!
# A settled cluster gets everything done: C69
-/

namespace Verif

open Spec

variable {κ : Type} {conv : κ → Span → Option Span × κ} {k : κ} {part : List UInt8 → Nat} {outcomes : List Parsed} {c : Cluster κ}

/-- Any number of steps of the proxies and the producer. -/
inductive Cluster.Steps (conv : κ → Span → Option Span × κ) (part : List UInt8 → Nat) (c : Cluster κ) : Cluster κ → Prop
  | refl : Steps conv part c c
  | step {d e : Cluster κ} : Steps conv part c d → d.Step conv part e → Steps conv part c e

theorem Cluster.Steps.trans {a b c : Cluster κ} (h : a.Steps conv part b) (h' : b.Steps conv part c) : a.Steps conv part c := by
  induction h' with
  | refl => exact h
  | step _ hs ih => exact .step ih hs

theorem Cluster.Settled.steps {assignment : List (List Nat)} (h : Cluster.Settled conv k part assignment outcomes c) {d : Cluster κ} (hs : c.Steps conv part d) :
    Cluster.Settled conv k part assignment outcomes d := by
  induction hs with
  | refl => exact h
  | step _ hs ih => exact .step ih hs

/-- Settled proxies are one of the histories of C68. -/
theorem Cluster.Settled.reachable {assignment : List (List Nat)} (hnd : assignment.flatten.Nodup) (h : Cluster.Settled conv k part assignment outcomes c) :
    Cluster.Reachable conv k part outcomes [] c := by
  induction h with
  | init now =>
    -- one proxy after the other, one partition after the other
    suffices key : ∀ rest pre : List (List Nat), (pre ++ rest).flatten.Nodup → Cluster.Reachable conv k part [] [] (Cluster.assigned k now pre) →
        Cluster.Reachable conv k part [] [] (Cluster.assigned k now (pre ++ rest)) from key assignment [] (by simpa using hnd) .init
    intro rest
    induction rest with
    | nil => intro pre _ h; simpa using h
    | cons ps rest ih =>
      intro pre hn h
      rw [show pre ++ ps :: rest = (pre ++ [ps]) ++ rest by simp] at hn ⊢
      refine ih _ hn ?_
      rw [List.flatten_append] at hn
      have hn := (List.nodup_append.mp hn).1
      clear ih
      suffices key2 : ∀ qs, qs <+: ps → Cluster.Reachable conv k part [] [] (Cluster.assigned k now (pre ++ [qs])) from key2 ps (List.prefix_refl _)
      intro qs
      refine list_snoc_induction (P := fun qs => qs <+: ps → Cluster.Reachable conv k part [] [] (Cluster.assigned k now (pre ++ [qs]))) ?_ ?_ qs
      · intro _
        have := Cluster.Reachable.upheaval h (.start now)
        simpa [Cluster.assigned] using this
      · intro qs q ih hq
        have ih := ih ((List.prefix_append _ _).trans hq)
        have hget : (Cluster.assigned k now (pre ++ [qs])).instances[pre.length]? =
            some { claims := qs.map fun p => { partition := p, offset := 0 }, back := System.init k now } := by
          simp [Cluster.assigned]
        have := Cluster.Reachable.upheaval ih (.assign q 0 hget (by
          intro n' hn' cl hcl he
          obtain ⟨rs, hrs, rfl⟩ := List.mem_map.mp hn'
          obtain ⟨p, hp, rfl⟩ := List.mem_map.mp hcl
          subst he
          rw [List.flatten_append, List.nodup_append] at hn
          obtain ⟨_, hn2, hn3⟩ := hn
          simp only [List.flatten_cons, List.flatten_nil, List.append_nil] at hn2 hn3
          rcases List.mem_append.mp hrs with hrs | hrs
          · exact hn3 p (List.mem_flatten.mpr ⟨rs, hrs, hp⟩) p (hq.subset (by simp)) rfl
          · rw [List.mem_singleton] at hrs
            subst hrs
            have := (hq.sublist.nodup hn2)
            rw [List.nodup_append] at this
            exact this.2.2 p hp p (by simp) rfl))
        simpa [Cluster.assigned] using this
  | request o _ hi ih => exact .request o ih hi
  | step _ hs ih => exact .step ih hs

/-- What is left for a claim. -/
def Claim.left (topic : Nat → List (List UInt8)) (cl : Claim) : Nat := 10 * ((topic cl.partition).length - cl.offset) + 2 * cl.busy.toList.length

/-- What is left behind Kafka. -/
def Instance.left (topic : Nat → List (List UInt8)) (n : Instance κ) : Nat := (n.claims.map (Claim.left topic)).sum + n.back.work

/-- As `Instance.CaughtUp`, for claims that may begin after the end of their partition. -/
def Instance.Done (n : Instance κ) (topic : Nat → List (List UInt8)) : Prop := (∀ cl ∈ n.claims, cl.busy = none ∧ (topic cl.partition).length ≤ cl.offset) ∧ n.back.http.channel = []

theorem Instance.CaughtUp.done {n : Instance κ} {topic : Nat → List (List UInt8)} (h : n.CaughtUp topic) : n.Done topic := ⟨fun cl hcl => ⟨(h.1 cl hcl).1, Nat.le_of_eq (h.1 cl hcl).2.symm⟩, h.2⟩

theorem ClaimsInv.caughtUp {ps topic calls log} {n : Instance κ} (inv : ClaimsInv ps topic calls log n) (h : n.Done topic) : n.CaughtUp topic :=
  ⟨fun cl hcl => ⟨(h.1 cl hcl).1, Nat.le_antisymm (inv.bound cl hcl) (h.1 cl hcl).2⟩, h.2⟩

theorem instance_progress {ps topic calls log} {n : Instance κ} (inv : ClaimsBase ps calls log n) {bouts : List Parsed} (hr : System.Reachable conv k bouts n.back)
    (h : ¬ (n.Done topic ∧ ¬ n.back.Pending)) : ∃ n' x, n.Step conv topic n' x ∧ n'.left topic < n.left topic ∧ n'.front = n.front ∧
      ((∃ b, n.back.Step conv b ∧ n' = { n with back := b }) ∨ n'.back.world = n.back.world ∧ n'.back.sink = n.back.sink) := by
  by_cases hp : n.back.Pending
  · obtain ⟨b, hs⟩ := C67_progress hr hp
    have := C67_terminates hr hs
    exact ⟨_, _, .back hs, by unfold Instance.left; dsimp only; omega, rfl, .inl ⟨b, hs, rfl⟩⟩
  · have hnot : ¬ n.Done topic := fun hc => h ⟨hc, hp⟩
    have hchan : n.back.http.channel = [] := by
      refine Classical.byContradiction fun e => hp (.inr (.inl e))
    have : ∃ cl ∈ n.claims, ¬ (cl.busy = none ∧ (topic cl.partition).length ≤ cl.offset) := by
      refine Classical.byContradiction fun hno => hnot ⟨fun cl hcl => Classical.byContradiction fun e => hno ⟨cl, hcl, e⟩, hchan⟩
    obtain ⟨cl, hcl, hne⟩ := this
    obtain ⟨j, hj⟩ := List.getElem?_of_mem hcl
    cases hb : cl.busy with
    | some b =>
      have hcall := inv.busy cl hcl b hb
      have hlen := (C33_all_or_nothing inv.http).1
      have hall := (C33_all_or_nothing inv.http).2.1
      cases hcb : calls[b]? with
      | none => rw [hcb] at hcall; cases hcall
      | some e =>
        have ho : (calls.map fun e => Parsed.spans [e.2])[b]? = some (.spans [e.2]) := by rw [List.getElem?_map, hcb]; rfl
        have hlt : b < n.back.http.conns.length := by rw [hlen]; exact (List.getElem?_eq_some_iff.mp ho).1
        have hc := List.getElem?_eq_getElem hlt
        have := hall b _ _ ho hc
        have hmem := List.getElem_mem hlt
        generalize n.back.http.conns[b] = cn at this hc hmem
        generalize pushedBy b log = pushed at this
        have hcn : cn = .answered 202 := by
          generalize hoo : Parsed.spans [e.2] = o at this
          cases this with
          | pushing => exact absurd (.inl ⟨_, hmem, .inr ⟨_, rfl⟩⟩) hp
          | accepted => rfl
          | failing => exact absurd (.inl ⟨_, hmem, .inl rfl⟩) hp
          | rejected => cases hoo
          | panicked => cases hoo
          | waiting => cases hoo
        rw [hcn] at hc
        refine ⟨_, _, .mark hj hb hc, ?_, rfl, .inr ⟨rfl, rfl⟩⟩
        have := sum_map_set (Claim.left topic) (q' := { cl with busy := none }) hj
        unfold Instance.left
        simp only [Claim.left, hb, Option.toList_some, Option.toList_none, List.length_singleton, List.length_nil] at this ⊢
        omega
    | none =>
      have hlt : cl.offset < (topic cl.partition).length := Nat.lt_of_not_le fun e => hne ⟨hb, e⟩
      have hv := List.getElem?_eq_getElem hlt
      cases hd : decodeKafkaMessage (topic cl.partition)[cl.offset] with
      | none =>
        refine ⟨_, _, .skip hj hb hv hd, ?_, rfl, .inr ⟨rfl, rfl⟩⟩
        have := sum_map_set (Claim.left topic) (q' := { cl with offset := cl.offset + 1 }) hj
        unfold Instance.left
        simp only [Claim.left, hb, Option.toList_none, List.length_nil] at this ⊢
        omega
      | some x =>
        refine ⟨_, _, .call hj hb hv hd, ?_, rfl, .inr ⟨rfl, rfl⟩⟩
        have := sum_map_set (Claim.left topic) (q' := { cl with offset := cl.offset + 1, busy := some n.back.http.conns.length }) hj
        unfold Instance.left System.work
        simp only [Claim.left, hb, Option.toList_some, Option.toList_none, List.length_singleton, List.length_nil, List.map_append, List.map_cons, List.map_nil, List.sum_append, List.sum_cons,
          List.sum_nil, Conn.start, connWork] at this ⊢
        omega

theorem Cluster.Steps.front {i : Nat} {n : Instance κ} (hi : c.instances[i]? = some n) {os : List Parsed} {topic' : List (List UInt8 × List UInt8)} {g : Front} (hl : n.front.Later part os topic' g) (ho : os = []) :
    ∃ t, c.Steps conv part { instances := c.instances.set i { n with front := g }, topic := t } := by
  induction hl with
  | refl =>
    refine ⟨c.topic, ?_⟩
    have : c.instances.set i n = c.instances := by
      obtain ⟨hlt, rfl⟩ := List.getElem?_eq_some_iff.mp hi
      exact List.set_getElem_self hlt
    show Cluster.Steps conv part c { instances := c.instances.set i n, topic := c.topic }
    rw [this]
    exact .refl
  | request o _ _ => simp at ho
  | step _ hs ih =>
    obtain ⟨t, ih⟩ := ih ho
    have hlt := (List.getElem?_eq_some_iff.mp hi).1
    have := Cluster.Steps.step ih (.front (i := i) (List.getElem?_set_self hlt) hs)
    rw [List.set_set] at this
    exact ⟨_, this⟩

/-- First, everything gets into the topic; … -/
theorem settled_fronts {assignment : List (List Nat)} (hnd : assignment.flatten.Nodup) (h : Cluster.Settled conv k part assignment outcomes c) (hsmall : ∀ x, Accepted outcomes x → Small x) :
    ∃ d, c.Steps conv part d ∧ (∀ n ∈ d.instances, n.front.Idle) ∧ ∀ (i : Nat) n, c.instances[i]? = some n → ∃ f, d.instances[i]? = some { n with front := f } := by
  generalize hn : (c.instances.map fun n => n.front.work).sum = w
  induction w using Nat.strongRecOn generalizing c with
  | _ w ih =>
    by_cases hw : ∀ n ∈ c.instances, n.front.Idle
    · exact ⟨c, .refl, hw, fun i n hi => ⟨n.front, hi⟩⟩
    · have : ∃ n ∈ c.instances, ¬ n.front.Idle := by
        refine Classical.byContradiction fun hno => hw fun n hn => Classical.byContradiction fun e => hno ⟨n, hn, e⟩
      obtain ⟨n, hnm, hidle⟩ := this
      obtain ⟨i, hi⟩ := List.getElem?_of_mem hnm
      obtain ⟨gs, inv⟩ := h.inv (List.pairwise_flatten.mp hnd).1
      obtain ⟨g, hg⟩ := inv.get hi
      obtain ⟨finv, _⟩ := inv.inst i n g hi hg
      obtain ⟨topic', f, hl, hlt⟩ := front_progress (part := part) finv (fun x hx => hsmall x (hx.mono fun o ho =>
        inv.outs.mem_iff.mp (List.mem_flatMap.mpr ⟨g, List.mem_of_getElem? hg, ho⟩))) hidle
      obtain ⟨t, hs⟩ := Cluster.Steps.front (conv := conv) hi hl rfl
      have := sum_map_set (fun n : Instance κ => n.front.work) (q' := { n with front := f }) hi
      dsimp only at this
      obtain ⟨d, hd, hid, hsame⟩ := ih _ (by dsimp only; omega) (h.steps hs) rfl
      refine ⟨d, hs.trans hd, hid, fun j m hj => ?_⟩
      by_cases e : i = j
      · subst e
        rw [hi] at hj; cases hj
        obtain ⟨f', hf'⟩ := hsame i _ (List.getElem?_set_self (List.getElem?_eq_some_iff.mp hi).1)
        exact ⟨f', hf'⟩
      · exact hsame j m (by rw [List.getElem?_set_ne e]; exact hj)

/-- … then all of it is read. -/
theorem settled_backs {assignment : List (List Nat)} (hnd : assignment.flatten.Nodup) (h : Cluster.Settled conv k part assignment outcomes c) (hid : ∀ n ∈ c.instances, n.front.Idle) :
    ∃ d, c.Steps conv part d ∧ ∀ n ∈ d.instances, n.front.Idle ∧ n.CaughtUp d.topic ∧ ¬ n.back.Pending := by
  generalize hn : (c.instances.map (Instance.left c.topic)).sum = w
  induction w using Nat.strongRecOn generalizing c with
  | _ w ih =>
    by_cases hw : ∀ n ∈ c.instances, n.CaughtUp c.topic ∧ ¬ n.back.Pending
    · exact ⟨c, .refl, fun n hn => ⟨hid n hn, hw n hn⟩⟩
    · have : ∃ n ∈ c.instances, ¬ (n.CaughtUp c.topic ∧ ¬ n.back.Pending) := by
        refine Classical.byContradiction fun hno => hw fun n hn => Classical.byContradiction fun e => hno ⟨n, hn, e⟩
      obtain ⟨n, hnm, hne⟩ := this
      obtain ⟨i, hi⟩ := List.getElem?_of_mem hnm
      obtain ⟨gs, inv⟩ := h.inv (List.pairwise_flatten.mp hnd).1
      obtain ⟨g, hg⟩ := inv.get hi
      obtain ⟨_, ps, _, cinv⟩ := inv.inst i n g hi hg
      obtain ⟨_, bouts, hb, _⟩ := (h.reachable hnd).inv.instances n hnm
      obtain ⟨n', x, hs, hlt, hf, _⟩ := instance_progress cinv.toClaimsBase hb (fun h => hne ⟨cinv.caughtUp h.1, h.2⟩)
      have hstep : c.Step conv part _ := .back hi hs
      have := sum_map_set (Instance.left c.topic) (q' := n') hi
      obtain ⟨d, hd, hdone⟩ := ih _ (by dsimp only; omega) (h.step hstep) (fun m hm => by
        rcases List.mem_or_eq_of_mem_set hm with hm | rfl
        · exact hid m hm
        · rw [hf]; exact hid n hnm) rfl
      exact ⟨d, (Cluster.Steps.step .refl hstep).trans hd, hdone⟩

/-- C69: whatever was going on, a settled cluster can get to the end: everything is in the topic, read, and processed; and then every collector has all spans of the traces of its partitions.
(That the steps cannot go on for ever otherwise, see `C70_terminates_partial` and `C67_terminates`.) -/
theorem C69_eventually {assignment : List (List Nat)} (hnd : assignment.flatten.Nodup) (h : Cluster.Settled conv k part assignment outcomes c) (hsmall : ∀ x, Accepted outcomes x → Small x) :
    ∃ d, c.Steps conv part d ∧ (∀ n ∈ d.instances, n.front.Idle ∧ n.CaughtUp d.topic ∧ ¬ n.back.Pending) ∧
      ∀ (i : Nat) n ps t, d.instances[i]? = some n → assignment[i]? = some ps → partitionOf part t ∈ ps →
        (spansOfTrace t n.back.world.received).Perm ((spansOfTrace t (acceptedSpans outcomes)).map Span.withTags) := by
  obtain ⟨d, h1, h2, _⟩ := settled_fronts hnd h hsmall
  obtain ⟨e, h3, h4⟩ := settled_backs hnd (h.steps h1) h2
  refine ⟨e, h1.trans h3, h4, fun i n ps t hn hps ht => ?_⟩
  exact C69_complete hnd ((h.steps h1).steps h3) hn hps t ht (fun m hm => (h4 m hm).1) (h4 n (List.mem_of_getElem? hn)).2.1

/-- Two proxies, twelve partitions: two spans of a trace, sent to different proxies, meet. -/
theorem C69_witness (conv : κ → Span → Option Span × κ) (k : κ) : ∃ c : Cluster κ, ∃ n : Instance κ,
    Cluster.Settled conv k (fun key => (key.headD 0).toNat % 12) [[0, 2, 4, 6, 8, 10], [1, 3, 5, 7, 9, 11]] [.spans [{ id := 1, trace := 19 }], .spans [{ id := 2, parent := 1, trace := 19 }]] c ∧
      c.instances[1]? = some n ∧ (spansOfTrace 19 n.back.world.received).Perm [{ id := 1, trace := 19, tags := some ∅ }, { id := 2, parent := 1, trace := 19, tags := some ∅ }] := by
  have h0 : Cluster.Settled conv k (fun key => (key.headD 0).toNat % 12) [[0, 2, 4, 6, 8, 10], [1, 3, 5, 7, 9, 11]] [] _ := .init 0
  have h1 := Cluster.Settled.request (i := 0) (.spans [{ id := 1, trace := 19 }]) h0 rfl
  have h2 := Cluster.Settled.request (i := 1) (.spans [{ id := 2, parent := 1, trace := 19 }]) h1 rfl
  have hsmall : ∀ x, Accepted ([] ++ [Parsed.spans [{ id := 1, trace := 19 }]] ++ [.spans [{ id := 2, parent := 1, trace := 19 }]]) x → Small x := by
    rintro x ⟨l, hl, hx⟩ ord hr
    simp at hl
    rcases hl with rfl | rfl
    all_goals
      rw [List.mem_singleton] at hx
      subst hx
      have : ord = [] := List.eq_nil_of_length_eq_zero (by rw [hr.length_eq]; simp)
      subst this
      decide +kernel
  obtain ⟨d, hs, _, h⟩ := C69_eventually (by decide) h2 hsmall
  have hd := h2.steps hs
  have hlen : ∀ {c d : Cluster κ}, c.Steps conv (fun key => (key.headD 0).toNat % 12) d → d.instances.length = c.instances.length := by
    intro c d hs
    induction hs with
    | refl => rfl
    | step _ hs ih => cases hs <;> simpa using ih
  have h2len := hlen hs
  have : 1 < d.instances.length := by rw [h2len]; simp [Cluster.assigned]
  refine ⟨d, d.instances[1], hd, List.getElem?_eq_getElem this, ?_⟩
  have := h 1 _ _ 19 (List.getElem?_eq_getElem this) rfl (by decide)
  exact this

end Verif
