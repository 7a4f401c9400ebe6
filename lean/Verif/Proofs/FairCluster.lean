import Verif.Spec.FairCluster
import Verif.Props.FairFront
import Verif.Props.Settling

/-!
# Progress of proxies that share a topic
-/

namespace Verif

open Spec

variable {κ : Type} {conv : κ → Span → Option Span × κ} {k : κ} {part : List UInt8 → Nat} {assignment : List (List Nat)}

/-- A sequence, one choice after the other. -/
theorem choose_seq {α : Type} {P : Nat → α → Prop} {R : Nat → α → α → Prop} {a : α} (h0 : P 0 a) (h : ∀ n a, P n a → ∃ b, P (n + 1) b ∧ R n a b) :
    ∃ s : Nat → α, s 0 = a ∧ ∀ n, P n (s n) ∧ R n (s n) (s (n + 1)) := by
  have h' : ∀ n (a : { a // P n a }), ∃ b : { b // P (n + 1) b }, R n a.1 b.1 := fun n a => by
    obtain ⟨b, hb, hr⟩ := h n a.1 a.2
    exact ⟨⟨b, hb⟩, hr⟩
  let f : (n : Nat) → { a // P n a } := fun n => Nat.rec ⟨a, h0⟩ (fun n x => Classical.choose (h' n x)) n
  exact ⟨fun n => (f n).1, rfl, fun n => ⟨(f n).2, Classical.choose_spec (h' n (f n))⟩⟩

/-- It goes on until something happens. -/
theorem goes_on {P Q : Nat → Prop} {n : Nat} (h0 : P n) (h : ∀ m, n ≤ m → P m → Q m ∨ P (m + 1)) : (∀ m, n ≤ m → P m) ∨ ∃ m, n ≤ m ∧ P m ∧ Q m := by
  by_cases hq : ∃ m, n ≤ m ∧ P m ∧ Q m
  · exact .inr hq
  · left
    intro m hm
    induction hm with
    | refl => exact h0
    | @step m hm ih =>
      rcases h m hm ih with e | e
      · exact absurd ⟨m, hm, ih, e⟩ hq
      · exact e

theorem deliver_prefix (topic : Nat → List (List UInt8)) (e : Option (List UInt8 × List UInt8)) (p : Nat) : topic p <+: deliverTopic part topic e p := by
  cases e with
  | none => exact List.prefix_rfl
  | some e =>
    show topic p <+: if p = part e.1 then topic p ++ [e.2] else topic p
    split
    · exact List.prefix_append _ _
    · exact List.prefix_rfl

section next

variable {q q' : Nat → List Parsed} {c c' : Cluster κ}

theorem Cluster.Next.topic (h : Cluster.Next conv part q c q' c') (p : Nat) : c.topic p <+: c'.topic p := by
  cases h with
  | step h =>
    cases h with
    | front hi hs => exact deliver_prefix _ _ _
    | back hi hs => exact List.prefix_rfl
  | request o hi => exact List.prefix_rfl
  | foreign p' v =>
    show c.topic p <+: if p = p' then c.topic p ++ [v] else c.topic p
    split
    · exact List.prefix_append _ _
    · exact List.prefix_rfl
  | stay => exact List.prefix_rfl

theorem Cluster.Next.length (h : Cluster.Next conv part q c q' c') : c'.instances.length = c.instances.length := by
  cases h with
  | step h => cases h <;> simp
  | request o hi => simp
  | foreign p' v => rfl
  | stay => rfl

/-- What a proxy wrote is in the topic. -/
def WroteIn (part : List UInt8 → Nat) (t : List (List UInt8 × List UInt8)) (topic : Nat → List (List UInt8)) : Prop := ∀ p, ((inPart part p t).map (·.2)).Sublist (topic p)

/-- What a proxy does in front of Kafka, and what it writes. -/
theorem Cluster.Next.writes (h : Cluster.Next conv part q c q' c') {i : Nat} {n n' : Instance κ} (hn : c.instances[i]? = some n) (hn' : c'.instances[i]? = some n') (outs : List Parsed)
    (t : List (List UInt8 × List UInt8)) : ∃ e, Front.Next part (outs ++ q i) t n.front (outs ++ q' i) (t ++ e) n'.front ∧ ∀ p, c.topic p ++ (inPart part p e).map (·.2) <+: c'.topic p := by
  have hi := (List.getElem?_eq_some_iff.mp hn).1
  have same : n'.front = n.front → q' i = q i → ∃ e, Front.Next part (outs ++ q i) t n.front (outs ++ q' i) (t ++ e) n'.front ∧ ∀ p, c.topic p ++ (inPart part p e).map (·.2) <+: c'.topic p := fun e1 e2 => by
    rw [e1, e2]
    refine ⟨[], by rw [List.append_nil]; exact .stay, fun p => ?_⟩
    rw [show (inPart part p []).map (·.2) = [] from rfl, List.append_nil]
    exact h.topic p
  cases h with
  | step h =>
    cases h with
    | @front i' m f e hm hs =>
      by_cases e' : i' = i
      · subst e'
        dsimp only at hn'
        rw [hn] at hm; cases hm
        rw [List.getElem?_set_self hi] at hn'; cases hn'
        refine ⟨e.toList, .step hs, fun p => ?_⟩
        cases e with
        | none => rw [show (inPart part p (Option.toList none)).map (·.2) = [] from rfl, List.append_nil]; exact List.prefix_rfl
        | some e =>
          show _ <+: if p = part e.1 then c.topic p ++ [e.2] else c.topic p
          by_cases hp : p = part e.1
          · subst hp
            rw [if_pos rfl]
            simp [inPart]
          · rw [if_neg hp]
            have : inPart part p [e] = [] := List.filter_eq_nil_iff.mpr fun x hx ex => by
              rw [List.mem_singleton] at hx; subst hx
              exact hp (of_decide_eq_true ex).symm
            rw [Option.toList_some, this, List.map_nil, List.append_nil]
            exact List.prefix_rfl
      · dsimp only at hn'
        rw [List.getElem?_set_ne e', hn] at hn'; cases hn'
        exact same rfl rfl
    | @back i' m m' x hm hs =>
      by_cases e' : i' = i
      · subst e'
        dsimp only at hn'
        rw [hn] at hm; cases hm
        rw [List.getElem?_set_self hi] at hn'; cases hn'
        refine same ?_ rfl
        cases hs <;> rfl
      · dsimp only at hn'
        rw [List.getElem?_set_ne e', hn] at hn'; cases hn'
        exact same rfl rfl
  | @request i' m o hm =>
    by_cases e' : i' = i
    · subst e'
      dsimp only at hn'
      rw [hn] at hm; cases hm
      rw [List.getElem?_set_self hi] at hn'; cases hn'
      refine ⟨[], ?_, fun p => ?_⟩
      · dsimp only
        rw [if_pos rfl, List.append_nil, ← List.append_assoc]
        exact .request o
      · rw [show (inPart part p []).map (·.2) = [] from rfl, List.append_nil]; exact List.prefix_rfl
    · dsimp only at hn'
      rw [List.getElem?_set_ne e', hn] at hn'; cases hn'
      exact same rfl (if_neg fun e => e' e.symm)
  | foreign p v => dsimp only at hn'; rw [hn] at hn'; cases hn'; exact same rfl rfl
  | stay => rw [hn] at hn'; cases hn'; exact same rfl rfl

theorem Cluster.Next.front (h : Cluster.Next conv part q c q' c') {i : Nat} {n n' : Instance κ} (hn : c.instances[i]? = some n) (hn' : c'.instances[i]? = some n')
    {t : List (List UInt8 × List UInt8)} (ht : WroteIn part t c.topic) : ∃ t', WroteIn part t' c'.topic ∧ Front.Next part (q i) t n.front (q' i) t' n'.front := by
  obtain ⟨e, h1, h2⟩ := h.writes hn hn' [] t
  refine ⟨t ++ e, fun p => ?_, h1⟩
  rw [inPart_append, List.map_append]
  exact (List.Sublist.append (ht p) (List.Sublist.refl _)).trans (h2 p).sublist

theorem Cluster.Next.back (h : Cluster.Next conv part q c q' c') {i : Nat} {n n' : Instance κ} (hn : c.instances[i]? = some n) (hn' : c'.instances[i]? = some n') :
    (∃ x, n.Step conv c.topic n' x) ∨ n'.back = n.back ∧ n'.claims = n.claims := by
  have hi := (List.getElem?_eq_some_iff.mp hn).1
  cases h with
  | step h =>
    cases h with
    | @front i' m f e hm hs =>
      by_cases e' : i' = i
      · subst e'
        dsimp only at hn'
        rw [hn] at hm; cases hm
        rw [List.getElem?_set_self hi] at hn'; cases hn'
        exact .inr ⟨rfl, rfl⟩
      · dsimp only at hn'
        rw [List.getElem?_set_ne e', hn] at hn'; cases hn'
        exact .inr ⟨rfl, rfl⟩
    | @back i' m m' x hm hs =>
      by_cases e' : i' = i
      · subst e'
        dsimp only at hn'
        rw [hn] at hm; cases hm
        rw [List.getElem?_set_self hi] at hn'; cases hn'
        exact .inl ⟨x, hs⟩
      · dsimp only at hn'
        rw [List.getElem?_set_ne e', hn] at hn'; cases hn'
        exact .inr ⟨rfl, rfl⟩
  | @request i' m o hm =>
    by_cases e' : i' = i
    · subst e'
      dsimp only at hn'
      rw [hn] at hm; cases hm
      rw [List.getElem?_set_self hi] at hn'; cases hn'
      exact .inr ⟨rfl, rfl⟩
    · dsimp only at hn'
      rw [List.getElem?_set_ne e', hn] at hn'; cases hn'
      exact .inr ⟨rfl, rfl⟩
  | foreign p v => dsimp only at hn'; rw [hn] at hn'; cases hn'; exact .inr ⟨rfl, rfl⟩
  | stay => rw [hn] at hn'; cases hn'; exact .inr ⟨rfl, rfl⟩

end next

theorem ClaimsInv.grow {ps : List Nat} {topic topic' : Nat → List (List UInt8)} {calls log : List (Nat × Span)} {n : Instance κ} (inv : ClaimsInv ps topic calls log n)
    (h : ∀ p, topic p <+: topic' p) : ClaimsInv ps topic' calls log n := by
  refine ⟨inv.toClaimsBase, fun e he => ?_, fun cl hcl => Nat.le_trans (inv.bound cl hcl) (h _).length_le, fun cl hcl => ?_⟩
  · obtain ⟨h1, v, hv, hd⟩ := inv.mine e he
    exact ⟨h1, v, (h _).subset hv, hd⟩
  · rw [inv.read cl hcl]
    obtain ⟨l, hl⟩ := h cl.partition
    rw [← hl, List.take_append_of_le_length (inv.bound cl hcl)]

theorem ClaimsBase.same {ps : List Nat} {calls log : List (Nat × Span)} {n n' : Instance κ} (inv : ClaimsBase ps calls log n) (h1 : n'.back = n.back) (h2 : n'.claims = n.claims) :
    ClaimsBase ps calls log n' := by
  obtain ⟨a, b, c, d, e, f, g⟩ := inv
  rw [← h1] at a e f
  rw [← h2] at b d e f
  exact ⟨a, b, c, d, e, f, g⟩

theorem ClaimsInv.same {ps : List Nat} {topic : Nat → List (List UInt8)} {calls log : List (Nat × Span)} {n n' : Instance κ} (inv : ClaimsInv ps topic calls log n)
    (h1 : n'.back = n.back) (h2 : n'.claims = n.claims) : ClaimsInv ps topic calls log n' := by
  obtain ⟨a, b, c, d⟩ := inv
  rw [← h2] at c d
  exact ⟨a.same h1 h2, b, c, d⟩

variable {r : ClusterExecution conv k part assignment}

/-- Every proxy lives on. -/
theorem ClusterExecution.proxy (r : ClusterExecution conv k part assignment) {i : Nat} (hi : i < assignment.length) : ∃ s, r.Proxy i s := by
  have hlen : ∀ n, (r.state n).instances.length = assignment.length := fun n => by
    induction n with
    | zero => obtain ⟨now, h⟩ := r.start; rw [h]; simp [Cluster.assigned]
    | succ n ih => rw [(r.next n).length, ih]
  exact ⟨fun n => (r.state n).instances[i]'(by rw [hlen]; exact hi), fun n => List.getElem?_eq_getElem _⟩

theorem ClusterExecution.topic (r : ClusterExecution conv k part assignment) {n m : Nat} (hm : n ≤ m) (p : Nat) : (r.state n).topic p <+: (r.state m).topic p := by
  induction hm with
  | refl => exact List.prefix_rfl
  | step hm ih => exact ih.trans ((r.next _).topic p)

theorem Proxy.initial {i : Nat} {s : Nat → Instance κ} (hs : r.Proxy i s) : ∃ ps now, assignment[i]? = some ps ∧ s 0 = { claims := ps.map fun p => { partition := p, offset := 0 }, back := System.init k now } := by
  obtain ⟨now, h⟩ := r.start
  have := hs 0
  rw [h] at this
  simp only [Cluster.assigned, List.getElem?_map] at this
  cases ha : assignment[i]? with
  | none => rw [ha] at this; cases this
  | some ps =>
    rw [ha] at this
    exact ⟨ps, now, rfl, (Option.some.inj this).symm⟩

/-- In front of Kafka, a proxy is as in C104. -/
theorem Proxy.front {i : Nat} {s : Nat → Instance κ} (hs : r.Proxy i s) : ∃ f : FrontExecution part, (∀ n, f.state n = (s n).front) ∧ (∀ n, f.outcomes n = r.requests n i) ∧
    f.Whole ∧ ∀ n, WroteIn part (f.topic n) (r.state n).topic := by
  obtain ⟨ps, now, _, h0⟩ := Proxy.initial hs
  obtain ⟨t, ht0, ht⟩ := choose_seq (P := fun n t => WroteIn part t (r.state n).topic) (R := fun n t t' => Front.Next part (r.requests n i) t (s n).front (r.requests (n + 1) i) t' (s (n + 1)).front)
    (a := []) (fun p => List.nil_sublist _) (fun n t h => (r.next n).front (hs n) (hs (n + 1)) h)
  have start : Front.Reachable part (r.requests 0 i) (t 0) (s 0).front := by rw [ht0, h0, r.noRequests]; exact .init
  exact ⟨{ state := fun n => (s n).front, outcomes := fun n => r.requests n i, topic := t, start := start.lossy, next := fun n => (ht n).2 }, fun _ => rfl, fun _ => rfl, start, fun n => (ht n).1⟩

/-- Behind Kafka, a proxy is as in C100. -/
theorem Proxy.back {i : Nat} {s : Nat → Instance κ} (hs : r.Proxy i s) {ps : List Nat} (hps : assignment[i]? = some ps) (hnd : ps.Nodup) :
    ∃ (b : Execution conv k) (calls log : Nat → List (Nat × Span)), (∀ n, b.state n = (s n).back) ∧ (∀ n, b.outcomes n = (calls n).map fun e => Parsed.spans [e.2]) ∧
      ∀ n, ClaimsInv ps (r.state n).topic (calls n) (log n) (s n) := by
  obtain ⟨ps', now, hps', h0⟩ := Proxy.initial hs
  rw [hps] at hps'; cases hps'
  obtain ⟨g, hg0, hg⟩ := choose_seq (P := fun n (g : List (Nat × Span) × List (Nat × Span)) => ClaimsInv ps (r.state n).topic g.1 g.2 (s n))
    (R := fun n g g' => System.Next conv (g.1.map fun e => Parsed.spans [e.2]) (s n).back (g'.1.map fun e => Parsed.spans [e.2]) (s (n + 1)).back) (a := ([], []))
    (by dsimp only; rw [h0]; exact ClaimsInv.fresh ps hnd _ now) (fun n g h => by
      have grow : ∀ p, (r.state n).topic p <+: (r.state (n + 1)).topic p := fun p => r.topic (Nat.le_succ n) p
      rcases (r.next n).back (hs n) (hs (n + 1)) with ⟨x, hx⟩ | ⟨e1, e2⟩
      · obtain ⟨calls', log', h1, h2⟩ := h.next hx
        exact ⟨(calls', log'), h2.grow grow, h1⟩
      · refine ⟨g, (h.same e1 e2).grow grow, ?_⟩
        rw [e1]; exact .stay)
  refine ⟨{ state := fun n => (s n).back, outcomes := fun n => (g n).1.map fun e => Parsed.spans [e.2], start := by rw [hg0, h0]; exact .init now, next := fun n => (hg n).2 },
    fun n => (g n).1, fun n => (g n).2, fun _ => rfl, fun _ => rfl, fun n => (hg n).1⟩

/-! ## The claims -/

/-- A claim changes by what its goroutine does. -/
theorem claim_next {topic : Nat → List (List UInt8)} {n n' : Instance κ} (h : (∃ x, n.Step conv topic n' x) ∨ n'.back = n.back ∧ n'.claims = n.claims) {j : Nat} {cl : Claim} (hj : n.claims[j]? = some cl) :
    n.Serves topic j n' ∨ n'.claims[j]? = some cl := by
  rcases h with ⟨x, h⟩ | ⟨_, h⟩
  · cases h with
    | @skip j' cl' v h1 h2 h3 h4 =>
      by_cases e : j' = j
      · subst e; exact .inl (.skip h1 h2 h3 h4)
      · right; dsimp only; rw [List.getElem?_set_ne e]; exact hj
    | @call j' cl' v x h1 h2 h3 h4 =>
      by_cases e : j' = j
      · subst e; exact .inl (.call h1 h2 h3 h4)
      · right; dsimp only; rw [List.getElem?_set_ne e]; exact hj
    | @mark j' cl' i h1 h2 h3 =>
      by_cases e : j' = j
      · subst e; exact .inl (.mark h1 h2 h3)
      · right; dsimp only; rw [List.getElem?_set_ne e]; exact hj
    | back h => exact .inr hj
    | event h => exact .inr hj
  · right; rw [h]; exact hj

theorem serves_claim {topic : Nat → List (List UInt8)} {n n' : Instance κ} {j : Nat} (h : n.Serves topic j n') {cl : Claim} (hj : n.claims[j]? = some cl) :
    ∃ cl', n'.claims[j]? = some cl' ∧ cl'.partition = cl.partition ∧ (cl.busy = none ∧ cl'.offset = cl.offset + 1 ∨ cl.busy.isSome ∧ cl'.busy = none ∧ cl'.offset = cl.offset) := by
  have hi := (List.getElem?_eq_some_iff.mp hj).1
  cases h with
  | skip h1 h2 h3 h4 => rw [hj] at h1; cases h1; exact ⟨_, List.getElem?_set_self hi, rfl, .inl ⟨h2, rfl⟩⟩
  | call h1 h2 h3 h4 => rw [hj] at h1; cases h1; exact ⟨_, List.getElem?_set_self hi, rfl, .inl ⟨h2, rfl⟩⟩
  | mark h1 h2 h3 => rw [hj] at h1; cases h1; exact ⟨_, List.getElem?_set_self hi, rfl, .inr ⟨by rw [h2]; rfl, rfl, rfl⟩⟩

/-- What is known about a fair proxy behind Kafka. -/
structure FairProxy (topic : Nat → Nat → List (List UInt8)) (ps : List Nat) (s : Nat → Instance κ) (b : Execution conv k) (calls log : Nat → List (Nat × Span)) : Prop where
  grows : ∀ n m, n ≤ m → ∀ p, topic n p <+: topic m p
  state : ∀ n, b.state n = (s n).back
  outcomes : ∀ n, b.outcomes n = (calls n).map fun e => Parsed.spans [e.2]
  inv : ∀ n, ClaimsBase ps (calls n) (log n) (s n)
  fair : b.Fair
  next : ∀ n, (∃ x, (s n).Step conv (topic n) (s (n + 1)) x) ∨ (s (n + 1)).back = (s n).back ∧ (s (n + 1)).claims = (s n).claims
  claim : ∀ j, Weakly (fun n => ∃ s', (s n).Serves (topic n) j s') (fun n => (s n).Serves (topic n) j (s (n + 1)))

theorem fair_back {b : Execution conv k} {s : Nat → System κ} (hb : ∀ n, b.state n = s n) (h : System.FairSeq conv s) : b.Fair := by
  have e : b.state = s := funext hb
  subst e
  exact ⟨h.handler, h.collect, h.emit, h.forward, h.sinkTake, h.sinkRead, h.ringTake, h.ringRead⟩

theorem fair_front {f : FrontExecution part} {s : Nat → Front} (hb : ∀ n, f.state n = s n) (h : Front.FairSeq part s) : f.Fair := by
  have e : f.state = s := funext hb
  subst e
  exact ⟨h.handler, h.send, h.input, h.dispatch, h.produce⟩

theorem Proxy.fair (h : r.Fair) {i : Nat} {s : Nat → Instance κ} (hs : r.Proxy i s) {ps : List Nat} (hps : assignment[i]? = some ps) (hnd : ps.Nodup) :
    ∃ (b : Execution conv k) (calls log : Nat → List (Nat × Span)), FairProxy (fun n => (r.state n).topic) ps s b calls log ∧ ∀ n, ClaimsInv ps (r.state n).topic (calls n) (log n) (s n) := by
  obtain ⟨b, calls, log, h1, h2, h3⟩ := Proxy.back hs hps hnd
  refine ⟨b, calls, log, ⟨fun n m hm p => r.topic hm p, h1, h2, fun n => (h3 n).toClaimsBase, ?_, ?_, ?_⟩, h3⟩
  · exact fair_back h1 (h.back i s hs)
  · exact fun n => (r.next n).back (hs n) (hs (n + 1))
  · exact h.claim i s hs

variable {ps : List Nat} {s : Nat → Instance κ} {b : Execution conv k} {topic : Nat → Nat → List (List UInt8)} {calls log : Nat → List (Nat × Span)}

/-- The callback returns, and the message is marked. -/
theorem FairProxy.idle (h : FairProxy topic ps s b calls log) {n j : Nat} {cl : Claim} (hj : (s n).claims[j]? = some cl) :
    ∃ m cl', n ≤ m ∧ (s m).claims[j]? = some cl' ∧ cl'.partition = cl.partition ∧ cl'.busy = none ∧ cl'.offset = cl.offset := by
  cases hb : cl.busy with
  | none => exact ⟨n, cl, Nat.le_refl _, hj, rfl, hb, rfl⟩
  | some i =>
    rcases goes_on (P := fun m => (s m).claims[j]? = some cl) (Q := fun m => (s m).Serves (topic m) j (s (m + 1))) hj (fun m hm e => claim_next (h.next m) e) with hall | ⟨m, hm, e, hserve⟩
    · exfalso
      have hcall := (h.inv n).busy cl (List.mem_of_getElem? hj) i hb
      cases hc : (calls n)[i]? with
      | none => rw [hc] at hcall; cases hcall
      | some e =>
        obtain ⟨m0, hm0, hans⟩ := (C100_answered h.fair (n := n) (i := i) (p := .spans [e.2]) (by rw [h.outcomes, List.getElem?_map, hc]; rfl)).1 _ rfl
        obtain ⟨m, hm, hw⟩ := h.claim j m0
        have hans' := hans m hm
        rw [h.state] at hans'
        rcases hw with hw | hw
        · exact hw ⟨_, .mark (hall m (by omega)) hb hans'⟩
        · obtain ⟨cl', h1, _, h3⟩ := serves_claim hw (hall m (by omega))
          have h1' := hall (m + 1) (by omega)
          rw [h1] at h1'; cases h1'
          rcases h3 with ⟨h3, _⟩ | ⟨_, h3, _⟩ <;> rw [hb] at h3 <;> cases h3
    · obtain ⟨cl', h1, h2, h3⟩ := serves_claim hserve e
      rcases h3 with ⟨h3, _⟩ | ⟨_, h3, h4⟩
      · rw [hb] at h3; cases h3
      · exact ⟨m + 1, cl', by omega, h1, h2, h3, h4⟩

/-- The next message is read. -/
theorem FairProxy.reads (h : FairProxy topic ps s b calls log) {n j : Nat} {cl : Claim} (hj : (s n).claims[j]? = some cl) (hb : cl.busy = none) (ho : cl.offset < (topic n cl.partition).length) :
    ∃ m cl', n ≤ m ∧ (s m).claims[j]? = some cl' ∧ cl'.partition = cl.partition ∧ cl'.offset = cl.offset + 1 := by
  rcases goes_on (P := fun m => (s m).claims[j]? = some cl) (Q := fun m => (s m).Serves (topic m) j (s (m + 1))) hj (fun m hm e => claim_next (h.next m) e) with hall | ⟨m, hm, e, hserve⟩
  · exfalso
    obtain ⟨m, hm, hw⟩ := h.claim j n
    rcases hw with hw | hw
    · have hlen := (h.grows _ _ hm cl.partition).length_le
      have hv := List.getElem?_eq_getElem (show cl.offset < (topic m cl.partition).length by omega)
      cases hd : decodeKafkaMessage ((topic m cl.partition)[cl.offset]'(by omega)) with
      | none => exact hw ⟨_, .skip (hall m hm) hb hv hd⟩
      | some x => exact hw ⟨_, .call (hall m hm) hb hv hd⟩
    · obtain ⟨cl', h1, _, h3⟩ := serves_claim hw (hall m hm)
      have h1' := hall (m + 1) (by omega)
      rw [h1] at h1'; cases h1'
      rcases h3 with ⟨_, h3⟩ | ⟨h3, _⟩
      · omega
      · rw [hb] at h3; cases h3
  · obtain ⟨cl', h1, h2, h3⟩ := serves_claim hserve e
    rcases h3 with ⟨_, h3⟩ | ⟨h3, _⟩
    · exact ⟨m + 1, cl', by omega, h1, h2, h3⟩
    · rw [hb] at h3; cases h3

/-- Everything in the partition is read, and the callback has returned. -/
theorem FairProxy.readAll (h : FairProxy topic ps s b calls log) {n j : Nat} {cl : Claim} (hj : (s n).claims[j]? = some cl) :
    ∃ m cl', n ≤ m ∧ (s m).claims[j]? = some cl' ∧ cl'.partition = cl.partition ∧ cl'.busy = none ∧ (topic n cl.partition).length ≤ cl'.offset := by
  have key : ∀ d m (c : Claim), n ≤ m → (s m).claims[j]? = some c → c.partition = cl.partition → (topic n cl.partition).length ≤ c.offset + d →
      ∃ m' cl', n ≤ m' ∧ (s m').claims[j]? = some cl' ∧ cl'.partition = cl.partition ∧ cl'.busy = none ∧ (topic n cl.partition).length ≤ cl'.offset := by
    intro d
    induction d with
    | zero =>
      intro m c hm hc hp hd
      obtain ⟨m', c', hm', h1, h2, h3, h4⟩ := h.idle hc
      exact ⟨m', c', by omega, h1, h2.trans hp, h3, by omega⟩
    | succ d ih =>
      intro m c hm hc hp hd
      obtain ⟨m', c', hm', h1, h2, h3, h4⟩ := h.idle hc
      by_cases hlt : c'.offset < (topic n cl.partition).length
      · have hlen := (h.grows n m' (by omega) cl.partition).length_le
        obtain ⟨m'', c'', hm'', k1, k2, k3⟩ := h.reads h1 h3 (by rw [h2, hp]; omega)
        exact ih m'' c'' (by omega) k1 (k2.trans (h2.trans hp)) (by omega)
      · exact ⟨m', c', by omega, h1, h2.trans hp, h3, by omega⟩
  exact key _ n cl (Nat.le_refl _) hj rfl (Nat.le_add_left _ _)

/-- The collector receives everything in the partition, in order. -/
theorem FairProxy.received (h : FairProxy topic ps s b calls log) (hinv : ∀ n, ClaimsInv ps (topic n) (calls n) (log n) (s n)) {p : Nat} (hp : p ∈ ps) (n : Nat) :
    ∃ m, n ≤ m ∧ ∀ m', m ≤ m' → ((topic n p).filterMap decodeKafkaMessage).Sublist (s m').back.world.received := by
  have hmem := hp
  rw [← (h.inv n).parts] at hmem
  obtain ⟨cl, hcl, rfl⟩ := List.mem_map.mp hmem
  obtain ⟨j, hj⟩ := List.getElem?_of_mem hcl
  obtain ⟨m, cl', hm, h1, h2, h3, h4⟩ := h.readAll hj
  obtain ⟨m1, hm1, hc⟩ := C100_collected h.fair m
  refine ⟨m1, by omega, fun m' hm' => ?_⟩
  have hc' := (hc m' hm').sublist
  rw [h.state, h.state] at hc'
  refine List.Sublist.trans ?_ hc'
  have inv := hinv m
  have hcl' := List.mem_of_getElem? h1
  have hread := inv.read cl' hcl'
  have hord := inv.order cl' hcl'
  rw [show pendOf (s m).back.http.conns cl' = [] by unfold pendOf; rw [h3], List.append_nil, hread, h2] at hord
  rw [← (C33_all_or_nothing inv.http).2.2.2]
  have hsub : (pushedFor cl.partition (calls m) (log m)).Sublist ((log m).map (·.2)) := (List.filter_sublist).map _
  rw [hord] at hsub
  refine List.Sublist.trans ?_ hsub
  obtain ⟨l, hl⟩ := h.grows _ _ hm cl.partition
  rw [← hl, List.take_append, List.take_of_length_le h4, List.filterMap_append]
  exact List.sublist_append_left _ _

end Verif
