import Verif.Spec.Moved
import Verif.Proofs.Recovery
import Verif.Proofs.Pieces

/-!
# Lemmas about traces while partitions move from proxy to proxy
-/

namespace Verif

open Spec

variable {κ : Type} {conv : κ → Span → Option Span × κ} {k : κ} {part : List UInt8 → Nat}

/-! ## No two proxies have the same partition -/

/-- The partitions of a proxy. -/
def Cluster.parts (c : Cluster κ) (i : Nat) : List Nat := (c.instances[i]?.map fun n => n.claims.map (·.partition)).getD []

def Cluster.Apart (c : Cluster κ) : Prop := ∀ i j p, p ∈ c.parts i → p ∈ c.parts j → i = j

theorem parts_set {is : List (Instance κ)} {topic topic' : Nat → List (List UInt8)} {i : Nat} {n n' : Instance κ} (hi : is[i]? = some n) (hp : n'.claims.map (·.partition) = n.claims.map (·.partition)) (j : Nat) :
    ({ instances := is.set i n', topic := topic' } : Cluster κ).parts j = ({ instances := is, topic := topic } : Cluster κ).parts j := by
  unfold Cluster.parts
  dsimp only
  by_cases e : i = j
  · subst e
    rw [List.getElem?_set_self (List.getElem?_eq_some_iff.mp hi).1, hi]
    simp [hp]
  · rw [List.getElem?_set_ne e]

theorem Instance.Step.parts {topic : Nat → List (List UInt8)} {n n' : Instance κ} {x : Option Span} (h : n.Step conv topic n' x) : n'.claims.map (·.partition) = n.claims.map (·.partition) := by
  cases h with
  | skip h1 => exact map_partition_set h1 rfl
  | call h1 => exact map_partition_set h1 rfl
  | mark h1 => exact map_partition_set h1 rfl
  | back => rfl
  | event => rfl

theorem Cluster.Step.parts {c c' : Cluster κ} (h : c.Step conv part c') (j : Nat) : c'.parts j = c.parts j := by
  cases h with
  | front hi hs => exact parts_set hi (by rfl) j
  | back hi hs => exact parts_set hi hs.parts j

theorem Cluster.Reachable.apart {outcomes foreign} {c : Cluster κ} (h : Cluster.Reachable conv k part outcomes foreign c) : c.Apart := by
  have same : ∀ {c c' : Cluster κ}, c.Apart → (∀ j, c'.parts j = c.parts j) → c'.Apart := fun h e i j p => by rw [e, e]; exact h i j p
  have less : ∀ {c c' : Cluster κ}, c.Apart → (∀ j p, p ∈ c'.parts j → p ∈ c.parts j) → c'.Apart := fun h e i j p hi hj => h i j p (e _ _ hi) (e _ _ hj)
  induction h with
  | init => intro i j p hi; simp [Cluster.parts] at hi
  | request o _ hi ih => exact same ih fun j => parts_set hi (by rfl) j
  | foreign p v _ ih => exact ih
  | step _ hs ih => exact same ih hs.parts
  | @upheaval outcomes foreign c c' _ hs ih =>
    cases hs with
    | start now =>
      refine less ih fun j p hp => ?_
      unfold Cluster.parts at hp ⊢
      dsimp only at hp
      rcases Nat.lt_trichotomy j c.instances.length with hj | hj | hj
      · rwa [List.getElem?_append_left hj] at hp
      · subst hj; simp at hp
      · rw [List.getElem?_eq_none (by simp; omega)] at hp; simp at hp
    | crash i now =>
      refine less ih fun j p hp => ?_
      unfold Cluster.parts at hp ⊢
      dsimp only at hp
      by_cases e : i = j
      · subst e
        rw [List.getElem?_set] at hp
        simp only [if_true] at hp
        split at hp <;> simp at hp
      · rwa [List.getElem?_set_ne e] at hp
    | lose hi hl => exact same ih fun j => parts_set hi (by rfl) j
    | @assign i n p o hi hfree =>
      have hlt := (List.getElem?_eq_some_iff.mp hi).1
      have key : ∀ j q, q ∈ ({ c with instances := c.instances.set i { n with claims := n.claims ++ [{ partition := p, offset := o }] } } : Cluster κ).parts j → q ∈ c.parts j ∨ j = i ∧ q = p := fun j q hq => by
        unfold Cluster.parts at hq ⊢
        dsimp only at hq
        by_cases e : i = j
        · subst e
          rw [List.getElem?_set_self hlt] at hq
          rw [hi]
          simp only [Option.map_some, Option.getD_some, List.map_append, List.mem_append, List.map_cons, List.map_nil, List.mem_singleton] at hq ⊢
          rcases hq with h | h
          · exact .inl h
          · exact .inr ⟨trivial, h⟩
        · rw [List.getElem?_set_ne e] at hq
          exact .inl hq
      have free : ∀ j, p ∉ c.parts j := fun j hp => by
        unfold Cluster.parts at hp
        cases hj : c.instances[j]? with
        | none => rw [hj] at hp; simp at hp
        | some m =>
          rw [hj] at hp
          obtain ⟨cl, hcl, e⟩ := List.mem_map.mp hp
          exact hfree m (List.mem_of_getElem? hj) cl hcl e
      intro a b q ha hb
      rcases key a q ha with h1 | ⟨rfl, rfl⟩
      · rcases key b q hb with h2 | ⟨rfl, rfl⟩
        · exact ih a b q h1 h2
        · exact absurd h1 (free _)
      · rcases key b q hb with h2 | ⟨rfl, _⟩
        · exact absurd h2 (free _)
        · rfl
    | @revoke i n l l' cl hi hl hb =>
      refine less ih fun j p hp => ?_
      unfold Cluster.parts at hp ⊢
      dsimp only at hp
      by_cases e : i = j
      · subst e
        rw [List.getElem?_set_self (List.getElem?_eq_some_iff.mp hi).1] at hp
        rw [hi]
        simp only [Option.map_some, Option.getD_some, List.map_append, List.mem_append] at hp ⊢
        rw [hl]
        simp only [List.map_append, List.map_cons, List.mem_append, List.mem_cons]
        rcases hp with h | h
        · exact .inl h
        · exact .inr (.inr h)
      · rwa [List.getElem?_set_ne e] at hp

theorem mem_parts {c : Cluster κ} {i : Nat} {n : Instance κ} (hi : c.instances[i]? = some n) {cl : Claim} (hcl : cl ∈ n.claims) : cl.partition ∈ c.parts i := by
  unfold Cluster.parts
  rw [hi]
  exact List.mem_map_of_mem hcl

/-! ## What the proxies have come by -/

/-- What is known about a proxy after any history: what it was asked is among what all were asked, and what it read was in the topic. -/
structure History (conv : κ → Span → Option Span × κ) (k : κ) (part : List UInt8 → Nat) (outcomes : List Parsed) (topic : Nat → List (List UInt8)) (n : Instance κ) : Prop where
  front : ∃ outs t, (∀ o ∈ outs, o ∈ outcomes) ∧ Front.Lossy part outs t n.front
  back : ∃ ps calls log, System.Reachable conv k (calls.map fun e => Parsed.spans [e.2]) n.back ∧ ClaimsBase ps calls log n ∧ ∀ e ∈ calls, InTopic topic e.2

theorem History.fresh (outcomes : List Parsed) (topic : Nat → List (List UInt8)) (now : Time) : History conv k part outcomes topic ({ back := System.init k now } : Instance κ) :=
  ⟨⟨[], [], by simp, .init⟩, [], [], [], .init now, .fresh now, by simp⟩

theorem History.mono {outcomes outcomes' : List Parsed} {topic topic' : Nat → List (List UInt8)} {n : Instance κ} (h : History conv k part outcomes topic n)
    (ho : ∀ o ∈ outcomes, o ∈ outcomes') (ht : ∀ p v, v ∈ topic p → v ∈ topic' p) : History conv k part outcomes' topic' n := by
  obtain ⟨⟨outs, t, h1, h2⟩, ps, calls, log, h3, h4, h5⟩ := h
  refine ⟨⟨outs, t, fun o h => ho o (h1 o h), h2⟩, ps, calls, log, h3, h4, fun e he => ?_⟩
  obtain ⟨p, v, hv, hd⟩ := h5 e he
  exact ⟨p, v, ht p v hv, hd⟩

theorem Cluster.Reachable.history {outcomes foreign} {c : Cluster κ} (h : Cluster.Reachable conv k part outcomes foreign c) : ∀ n ∈ c.instances, History conv k part outcomes c.topic n := by
  induction h with
  | init => intro n hn; cases hn
  | @request outcomes foreign c i n o _ hi ih =>
    intro n' hn'
    rcases List.mem_or_eq_of_mem_set hn' with h | rfl
    · exact (ih n' h).mono (fun o h => List.mem_append_left _ h) fun _ _ h => h
    · obtain ⟨⟨outs, t, h0, h1⟩, ps, calls, log, h2, h3, h4⟩ := ih n (List.mem_of_getElem? hi)
      refine ⟨⟨_, _, fun x hx => ?_, .request o h1⟩, ps, calls, log, h2, h3.front _, h4⟩
      rcases List.mem_append.mp hx with hx | hx
      · exact List.mem_append_left _ (h0 x hx)
      · exact List.mem_append_right _ hx
  | foreign p v _ ih => exact fun n hn => (ih n hn).mono (fun _ h => h) fun _ _ h => mem_appendTopic h
  | @step outcomes foreign c c' _ hs ih =>
    cases hs with
    | @front i n f e hi hs =>
      intro n' hn'
      rcases List.mem_or_eq_of_mem_set hn' with h | rfl
      · exact (ih n' h).mono (fun _ h => h) fun _ _ h => mem_deliverTopic h
      · obtain ⟨⟨outs, t, h0, h1⟩, ps, calls, log, h2, h3, h4⟩ := (ih n (List.mem_of_getElem? hi)).mono (fun _ h => h) fun _ _ h => mem_deliverTopic (part := part) (e := e) h
        exact ⟨⟨_, _, h0, .step h1 hs⟩, ps, calls, log, h2, h3.front _, h4⟩
    | @back i n n1 x hi hs =>
      intro n' hn'
      rcases List.mem_or_eq_of_mem_set hn' with h | rfl
      · exact ih n' h
      · obtain ⟨hf, ps, calls, log, h2, h3, h4⟩ := ih n (List.mem_of_getElem? hi)
        obtain ⟨calls', log', k4, _, k5, k6⟩ := h3.next hs
        refine ⟨?_, ps, calls', log', h2.next k4, k6, fun e he => ?_⟩
        · have : n'.front = n.front := by cases hs <;> rfl
          rw [this]; exact hf
        · rcases k5.mine e he with he | ⟨_, v, hv, hd⟩
          · exact h4 e he
          · exact ⟨_, v, hv, hd⟩
  | @upheaval outcomes foreign c c' _ hs ih =>
    cases hs with
    | start now =>
      intro n' hn'
      rcases List.mem_append.mp hn' with h | h
      · exact ih n' h
      · rw [List.mem_singleton] at h; subst h; exact .fresh _ _ now
    | crash i now =>
      intro n' hn'
      rcases List.mem_or_eq_of_mem_set hn' with h | rfl
      · exact ih n' h
      · exact .fresh _ _ now
    | @lose i n l l' m hi hl =>
      intro n' hn'
      rcases List.mem_or_eq_of_mem_set hn' with h | rfl
      · exact ih n' h
      · obtain ⟨⟨outs, t, h0, h1⟩, ps, calls, log, h2, h3, h4⟩ := ih n (List.mem_of_getElem? hi)
        exact ⟨⟨_, _, h0, .lose h1 hl⟩, ps, calls, log, h2, h3.front _, h4⟩
    | @assign i n p o hi hfree =>
      intro n' hn'
      rcases List.mem_or_eq_of_mem_set hn' with h | rfl
      · exact ih n' h
      · obtain ⟨hf, ps, calls, log, h2, h3, h4⟩ := ih n (List.mem_of_getElem? hi)
        refine ⟨hf, ps ++ [p], calls, log, h2, h3.assign (fun hp => ?_) o, h4⟩
        rw [← h3.parts] at hp
        obtain ⟨cl, hcl, e⟩ := List.mem_map.mp hp
        exact hfree n (List.mem_of_getElem? hi) cl hcl e
    | @revoke i n l l' cl hi hl hb =>
      intro n' hn'
      rcases List.mem_or_eq_of_mem_set hn' with h | rfl
      · exact ih n' h
      · obtain ⟨hf, ps, calls, log, h2, h3, h4⟩ := ih n (List.mem_of_getElem? hi)
        exact ⟨hf, _, calls, log, h2, h3.revoke hl hb, h4⟩

/-! ## A new trace in the topic -/

/-- What is in the topic of a trace is what the proxies wrote of it. -/
structure NewInv (part : List UInt8 → Nat) (t : Id) (outs0 q : Nat → List Parsed) (gs : List Ghost) (c : Cluster κ) : Prop where
  length : gs.length = c.instances.length
  inst : ∀ (i : Nat) (n : Instance κ) (g : Ghost), c.instances[i]? = some n → gs[i]? = some g → FrontInv g.outs g.log g.prod g.fly g.rest n.front ∧ g.outs = outs0 i ++ q i
  topic : ∀ p, (spansOfTrace t ((c.topic p).filterMap decodeKafkaMessage)).Perm
    (((gs.flatMap (·.prod)).filter fun x => decide (x.1.trace = t ∧ partitionOf part t = p)).map fun x => x.1.withTags)

theorem choose_list {α β : Type} {P : α → β → Prop} : ∀ (l : List α), (∀ a ∈ l, ∃ b, P a b) → ∃ bs : List β, bs.length = l.length ∧ ∀ (i : Nat) a b, l[i]? = some a → bs[i]? = some b → P a b
  | [], _ => ⟨[], rfl, fun i a b h => by simp at h⟩
  | a :: l, h => by
    obtain ⟨b, hb⟩ := h a List.mem_cons_self
    obtain ⟨bs, h1, h2⟩ := choose_list l fun a ha => h a (List.mem_cons_of_mem _ ha)
    refine ⟨b :: bs, by simp [h1], fun i x y hx hy => ?_⟩
    cases i with
    | zero => simp at hx hy; subst hx hy; exact hb
    | succ i => exact h2 i x y (by simpa using hx) (by simpa using hy)

theorem topic_provenance {outcomes foreign} {topic : Nat → List (List UInt8)} (h : TopicOk part outcomes foreign topic) {p : Nat} {v : List UInt8} {x : Span} (hv : v ∈ topic p) (hd : decodeKafkaMessage v = some x) :
    FromTopic outcomes foreign x := by
  rcases h p v hv with hf | ⟨y, h1, h2, rfl, _⟩
  · right
    unfold decodeKafkaMessage at hd
    cases e : binaryDecode v with
    | none => rw [e] at hd; simp at hd
    | some y =>
      rw [e] at hd
      simp at hd
      subst hd
      exact ⟨v, hf, y.2, e⟩
  · left
    rw [h2.decode, Option.some.injEq] at hd
    exact ⟨_, h1, hd.symm⟩

/-- At first, there is nothing. -/
theorem new_start {outcomes foreign} {c : Cluster κ} (h : Cluster.Reachable conv k part outcomes foreign c) {t : Id} (hno : ∀ x, FromTopic outcomes foreign x → x.trace ≠ t) :
    ∃ outs0 gs, (∀ i o, o ∈ outs0 i → o ∈ outcomes) ∧ NewInv part t outs0 (fun _ => []) gs c := by
  obtain ⟨gs, h1, h2⟩ := choose_list (P := fun (n : Instance κ) (g : Ghost) => FrontInv g.outs g.log g.prod g.fly g.rest n.front ∧ ∀ o ∈ g.outs, o ∈ outcomes) c.instances fun n hn => by
    obtain ⟨⟨outs, u, k1, k2⟩, _⟩ := h.history n hn
    obtain ⟨log, prod, fly, rest, inv⟩ := k2.inv
    exact ⟨{ outs := outs, log := log, prod := prod, fly := fly, rest := rest }, inv, k1⟩
  have both : ∀ (i : Nat) g, gs[i]? = some g → ∃ n, c.instances[i]? = some n ∧ FrontInv g.outs g.log g.prod g.fly g.rest n.front ∧ ∀ o ∈ g.outs, o ∈ outcomes := fun i g hg => by
    have hlt := (List.getElem?_eq_some_iff.mp hg).1
    exact ⟨_, List.getElem?_eq_getElem (by omega), h2 i _ g (List.getElem?_eq_getElem (by omega)) hg⟩
  refine ⟨fun i => (gs[i]?.map (·.outs)).getD [], gs, fun i o ho => ?_, h1, fun i n g hn hg => ⟨(h2 i n g hn hg).1, by rw [hg]; simp⟩, fun p => ?_⟩
  · dsimp only at ho
    cases hg : gs[i]? with
    | none => rw [hg] at ho; simp at ho
    | some g =>
      rw [hg] at ho
      obtain ⟨_, _, _, hall⟩ := both i g hg
      exact hall o ho
  · have e1 : spansOfTrace t ((c.topic p).filterMap decodeKafkaMessage) = [] := List.filter_eq_nil_iff.mpr fun x hx hxt => by
      obtain ⟨v, hv, hd⟩ := List.mem_filterMap.mp hx
      exact hno x (topic_provenance h.inv.topic hv hd) (by simpa using hxt)
    have e2 : ((gs.flatMap (·.prod)).filter fun x => decide (x.1.trace = t ∧ partitionOf part t = p)) = [] := List.filter_eq_nil_iff.mpr fun x hx hxt => by
      obtain ⟨g, hg, hx⟩ := List.mem_flatMap.mp hx
      obtain ⟨i, hi⟩ := List.getElem?_of_mem hg
      obtain ⟨n, _, inv, hall⟩ := both i g hi
      have hs : x ∈ n.front.pool.sent := inv.msgs.subset (List.mem_append_left _ hx)
      have hacc := (http_accepted inv.http (List.mem_map_of_mem hs)).mono hall
      exact hno _ (.inl ⟨_, hacc, rfl⟩) (by simp at hxt; exact hxt.1)
    rw [e1, e2]
    exact .refl _

theorem deliver_filter (t : Id) (topic : Nat → List (List UInt8)) (p0 : Nat) (v : List UInt8) (p : Nat) :
    spansOfTrace t ((appendTopic topic p0 v p).filterMap decodeKafkaMessage) =
      spansOfTrace t ((topic p).filterMap decodeKafkaMessage) ++ if p = p0 then spansOfTrace t (decodeKafkaMessage v).toList else [] := by
  unfold appendTopic
  split
  · rw [List.filterMap_append]
    unfold spansOfTrace
    rw [List.filter_append]
    congr 2
  · rw [List.append_nil]

theorem NewInv.next {t : Id} {outs0 q q' : Nat → List Parsed} {gs : List Ghost} {c c' : Cluster κ} (inv : NewInv part t outs0 q gs c) (h : Cluster.Next conv part q c q' c')
    (hcl : ∀ p v x, c' = { c with topic := appendTopic c.topic p v } → decodeKafkaMessage v = some x → x.trace ≠ t) : ∃ gs', NewInv part t outs0 q' gs' c' := by
  have upd : ∀ {i : Nat} {n n' : Instance κ} {g g' : Ghost}, c.instances[i]? = some n → gs[i]? = some g → FrontInv g'.outs g'.log g'.prod g'.fly g'.rest n'.front → g'.outs = outs0 i ++ q' i → (∀ j, j ≠ i → q' j = q j) →
      ∀ (j : Nat) m g1, (c.instances.set i n')[j]? = some m → (gs.set i g')[j]? = some g1 → FrontInv g1.outs g1.log g1.prod g1.fly g1.rest m.front ∧ g1.outs = outs0 j ++ q' j := by
    intro i n n' g g' hi hg h1 h2 h3 j m g1 hm hg1
    by_cases e : i = j
    · subst e
      rw [List.getElem?_set_self (List.getElem?_eq_some_iff.mp hi).1] at hm
      rw [List.getElem?_set_self (List.getElem?_eq_some_iff.mp hg).1] at hg1
      cases hm; cases hg1
      exact ⟨h1, h2⟩
    · rw [List.getElem?_set_ne e] at hm hg1
      rw [h3 j fun e' => e e'.symm]
      exact inv.inst j m g1 hm hg1
  have ghost : ∀ {i : Nat} {n : Instance κ}, c.instances[i]? = some n → ∃ g, gs[i]? = some g := fun hi => by
    have := (List.getElem?_eq_some_iff.mp hi).1
    exact ⟨_, List.getElem?_eq_getElem (by rw [inv.length]; exact this)⟩
  cases h with
  | step hs =>
    cases hs with
    | @front i n f e hi hs =>
      obtain ⟨g, hg⟩ := ghost hi
      obtain ⟨h1, h2⟩ := inv.inst i n g hi hg
      obtain ⟨log', prod', fly', rest', inv', he⟩ := h1.step hs
      refine ⟨gs.set i { g with log := log', prod := prod', fly := fly', rest := rest' }, by simpa using inv.length, upd hi hg inv' h2 fun _ _ => rfl, fun p => ?_⟩
      rcases he with ⟨rfl, rfl⟩ | ⟨x, rfl, hx, hok, rfl⟩
      · have hp := flatMap_set (f := Ghost.prod) (a' := { g with log := log', prod := g.prod, fly := fly', rest := rest' }) (d := []) hg (by simp)
        rw [List.append_nil] at hp
        exact (inv.topic p).trans ((hp.symm.filter _).map _)
      · have hp := flatMap_set (f := Ghost.prod) (a' := { g with log := log', prod := g.prod ++ [x], fly := fly', rest := rest' }) (d := [x]) hg rfl
        refine List.Perm.trans ?_ ((hp.symm.filter _).map _)
        dsimp only [deliverTopic]
        rw [deliver_filter, hok.decode, List.filter_append, List.map_append]
        refine (inv.topic p).append (.of_eq ?_)
        unfold spansOfTrace partitionOf
        by_cases ht : x.1.trace = t
        · subst ht
          by_cases hpp : p = part (littleEndian x.1.trace.toUInt64)
          · subst hpp; simp [Span.withTags]
          · have : ¬ part (littleEndian x.1.trace.toUInt64) = p := fun e => hpp e.symm
            simp [hpp, this]
        · have : ¬ x.1.withTags.trace = t := ht
          simp [ht, this]
    | @back i n n' x hi hs =>
      obtain ⟨g, hg⟩ := ghost hi
      obtain ⟨h1, h2⟩ := inv.inst i n g hi hg
      have hf : n'.front = n.front := by cases hs <;> rfl
      refine ⟨gs, by simpa using inv.length, fun j m g1 hm hg1 => ?_, inv.topic⟩
      have := upd (n' := n') (g' := g) hi hg (by rw [hf]; exact h1) h2 (fun _ _ => rfl) j m g1 hm
      rw [show gs.set i g = gs from by
        obtain ⟨hlt, hgg⟩ := List.getElem?_eq_some_iff.mp hg
        rw [← hgg]; exact List.set_getElem_self hlt] at this
      exact this hg1
  | @request i n o hi =>
    obtain ⟨g, hg⟩ := ghost hi
    obtain ⟨h1, h2⟩ := inv.inst i n g hi hg
    refine ⟨gs.set i { g with outs := g.outs ++ [o] }, by simpa using inv.length, upd hi hg (h1.request o) (by simp [h2]) (fun j hj => by simp [hj]), fun p => ?_⟩
    have hp := flatMap_set (f := Ghost.prod) (a' := { g with outs := g.outs ++ [o] }) (d := []) hg (by simp)
    rw [List.append_nil] at hp
    exact (inv.topic p).trans ((hp.symm.filter _).map _)
  | foreign p0 v =>
    refine ⟨gs, inv.length, inv.inst, fun p => ?_⟩
    dsimp only
    rw [deliver_filter]
    have : (if p = p0 then spansOfTrace t (decodeKafkaMessage v).toList else []) = [] := by
      split
      · refine List.filter_eq_nil_iff.mpr fun x hx => ?_
        simpa using hcl p0 v x rfl (by simpa using hx)
      · rfl
    rw [this, List.append_nil]
    exact inv.topic p
  | stay => exact ⟨gs, inv⟩

variable {r : Recovery conv k part}

theorem Recovery.length (r : Recovery conv k part) (n : Nat) : (r.state n).instances.length = (r.state 0).instances.length := by
  induction n with
  | zero => rfl
  | succ n ih => rw [(r.next n).length, ih]

/-- The topic has nothing of a new trace that was not posted, and this in the right partition. -/
theorem Recovery.new_topic {outcomes foreign} (h : Cluster.Reachable conv k part outcomes foreign (r.state 0)) {t : Id} (hno : ∀ x, FromTopic outcomes foreign x → x.trace ≠ t) (hc : r.ClosedFor t) (n p : Nat) :
    List.Subperm (spansOfTrace t (((r.state n).topic p).filterMap decodeKafkaMessage)) ((r.posted t n).map Span.withTags) ∧
    (p ≠ partitionOf part t → spansOfTrace t (((r.state n).topic p).filterMap decodeKafkaMessage) = []) := by
  obtain ⟨outs0, gs0, h0, inv0⟩ := new_start h hno
  have : ∃ gs, NewInv part t outs0 (r.requests n) gs (r.state n) := by
    induction n with
    | zero => exact ⟨gs0, by rw [show r.requests 0 = fun _ => [] from funext r.noRequests]; exact inv0⟩
    | succ n ih =>
      obtain ⟨gs, inv⟩ := ih
      exact inv.next (r.next n) fun p v x => hc n p v x
  obtain ⟨gs, inv⟩ := this
  constructor
  · refine (inv.topic p).subperm.trans ?_
    have hsub := produced_accepted gs (r.state n).instances inv.length fun i n g hn hg => (inv.inst i n g hn hg).1
    have h1 : List.Subperm ((gs.flatMap (·.prod)).filter fun x => decide (x.1.trace = t ∧ partitionOf part t = p)) ((gs.flatMap (·.prod)).filter fun x => decide (x.1.trace = t)) := by
      refine (List.Sublist.subperm ?_)
      rw [show (fun x : Sent => decide (x.1.trace = t ∧ partitionOf part t = p)) = fun x => (decide (partitionOf part t = p) && decide (x.1.trace = t)) from funext fun x => by rw [Bool.and_comm]; simp, ← List.filter_filter]
      exact List.filter_sublist
    refine (subperm_map _ h1).trans ?_
    have hout : spansOfTrace t (acceptedSpans (gs.flatMap (·.outs))) = r.posted t n := by
      have e1 : gs.flatMap (·.outs) = (List.range (r.state 0).instances.length).flatMap fun i => outs0 i ++ r.requests n i := by
        rw [← r.length n, ← inv.length]
        refine (flatMap_range _ gs _ fun i g hg => ?_).symm
        have hlt := (List.getElem?_eq_some_iff.mp hg).1
        exact (inv.inst i _ g (List.getElem?_eq_getElem (by rw [← inv.length]; exact hlt)) hg).2.symm
      rw [e1]
      unfold Recovery.posted
      generalize List.range (r.state 0).instances.length = l
      induction l with
      | nil => rfl
      | cons i l ih =>
        rw [List.flatMap_cons, List.flatMap_cons]
        unfold spansOfTrace acceptedSpans at ih ⊢
        rw [List.flatMap_append, List.flatMap_append, List.flatMap_append, List.filter_append, List.filter_append, List.filter_append, ih]
        congr 1
        rw [List.filter_eq_nil_iff.mpr, List.nil_append]
        intro x hx hxt
        obtain ⟨o, ho, hx⟩ := List.mem_flatMap.mp hx
        cases o with
        | spans l' => exact hno x.withTags (.inl ⟨x, ⟨l', h0 i _ ho, hx⟩, rfl⟩) (show x.trace = t by simpa using hxt)
        | err => cases hx
        | panic => cases hx
        | timeout => cases hx
    rw [← hout]
    have := subperm_map Span.withTags (hsub.filter fun s => decide (s.trace = t))
    refine List.Subperm.trans (List.Perm.subperm (.of_eq ?_)) this
    rw [List.filter_map, List.map_map]
    rfl
  · intro hp
    have := inv.topic p
    rw [List.filter_eq_nil_iff.mpr fun x _ hx => by simp at hx; exact hp hx.2.symm, List.map_nil] at this
    exact this.eq_nil

/-- A collector has nothing of a new trace that was not posted, and nothing at all if its partition is with another proxy. -/
theorem Recovery.new_received (hf : r.Fair) {outcomes foreign} (h : Cluster.Reachable conv k part outcomes foreign (r.state 0)) {t : Id} (hno : ∀ x, FromTopic outcomes foreign x → x.trace ≠ t) (hc : r.ClosedFor t)
    {i : Nat} {s : Nat → Instance κ} (hi : r.Proxy i s) : ∃ e : Execution conv k, (∀ n, e.state n = (s n).back) ∧ e.Fair ∧
      ∀ n, List.Subperm (receivedFor t (s n).back.world.received) ((r.posted t n).map Span.withTags) ∧
        ((∀ cl ∈ (s 0).claims, cl.partition ≠ partitionOf part t) → receivedFor t (s n).back.world.received = []) := by
  obtain ⟨_, ps, calls0, log0, hreach, hbase, hcalls⟩ := h.history _ (List.mem_of_getElem? (hi 0))
  obtain ⟨e, calls, log, hp, hc0, hs⟩ := Recovery.fair_back_from hf hi hreach hbase
  refine ⟨e, hp.state, hp.fair, fun n => ?_⟩
  have htopic := Recovery.new_topic h hno hc n
  have old : ∀ e ∈ calls 0, e.2.trace ≠ t := fun e he => by
    rw [hc0] at he
    obtain ⟨p, v, hv, hd⟩ := hcalls e he
    exact hno _ (topic_provenance h.inv.topic hv hd)
  obtain ⟨⟨_, _, hread⟩, hmine⟩ := hs n
  have inv := hp.inv n
  have hlog := (C33_all_or_nothing inv.http).2.2.2
  have hentry : ∀ x ∈ log n, x.2.trace = t → partitionOf part t ∈ ps ∧ (calls n)[x.1]?.map Prod.fst = some (partitionOf part t) := fun x hx hxt => by
    obtain ⟨q, hq⟩ := inv.entry hx
    rcases hmine _ (List.mem_of_getElem? hq) with h' | ⟨h1, v, hv, hd⟩
    · exact absurd hxt (old (q, x.2) h')
    · have : q = partitionOf part t := by
        refine Classical.byContradiction fun hne => ?_
        have := (htopic q).2 hne
        exact absurd (List.filter_eq_nil_iff.mp this x.2 (List.mem_filterMap.mpr ⟨v, hv, hd⟩)) (by simpa using hxt)
      subst this
      exact ⟨h1, by rw [hq]; rfl⟩
  have hsub : List.Sublist (receivedFor t (s n).back.world.received) (spansOfTrace t ((log n).map (·.2))) := by
    rw [hlog]
    unfold receivedFor spansOfTrace
    rw [List.filter_append, show (fun s : Span => decide (Traced s) && s.trace == t) = fun s => (decide (Traced s) && decide (s.trace = t)) from funext fun s => by simp [beq_eq_decide], ← List.filter_filter]
    exact List.filter_sublist.trans (List.sublist_append_left _ _)
  have hps : (s 0).claims.map (·.partition) = ps := (hp.inv 0).parts
  constructor
  · by_cases hmem : partitionOf part t ∈ ps
    · have hmem' := hmem
      rw [← inv.parts] at hmem'
      obtain ⟨cl, hcl, hclp⟩ := List.mem_map.mp hmem'
      have htr : spansOfTrace t ((log n).map (·.2)) = spansOfTrace t (pushedFor (partitionOf part t) (calls n) (log n)) := by
        unfold spansOfTrace pushedFor
        rw [List.filter_map, List.filter_map, List.filter_filter]
        congr 1
        apply List.filter_congr
        intro x hx
        by_cases hxt : x.2.trace = t
        · simp [hxt, (hentry x hx hxt).2]
        · simp [hxt]
      have hord := inv.order cl hcl
      obtain ⟨cl0, _, _, _, _, k5⟩ := hread cl hcl
      rw [k5, hclp] at hord
      have hpre : List.Sublist (pushedFor (partitionOf part t) (calls n) (log n)) (callsOf (partitionOf part t) (calls 0) ++ ((((r.state n).topic (partitionOf part t)).take cl.offset).drop cl0.offset).filterMap decodeKafkaMessage) := by
        rw [← hord]; exact List.sublist_append_left _ _
      have hfil := hpre.filter fun s => decide (s.trace = t)
      have hnone : (callsOf (partitionOf part t) (calls 0)).filter (fun s => decide (s.trace = t)) = [] := List.filter_eq_nil_iff.mpr fun x hx hxt => by
        unfold callsOf at hx
        obtain ⟨y, hy, rfl⟩ := List.mem_map.mp hx
        exact old y (List.mem_filter.mp hy).1 (by simpa using hxt)
      rw [List.filter_append, hnone, List.nil_append] at hfil
      have hlast : List.Sublist (((((r.state n).topic (partitionOf part t)).take cl.offset).drop cl0.offset).filterMap decodeKafkaMessage) (((r.state n).topic (partitionOf part t)).filterMap decodeKafkaMessage) :=
        ((List.drop_sublist _ _).trans (List.take_sublist _ _)).filterMap _
      refine (hsub.trans ?_).subperm.trans (htopic (partitionOf part t)).1
      rw [htr]
      exact hfil.trans (hlast.filter _)
    · have : spansOfTrace t ((log n).map (·.2)) = [] := List.filter_eq_nil_iff.mpr fun x hx hxt => by
        obtain ⟨y, hy, rfl⟩ := List.mem_map.mp hx
        exact hmem (hentry y hy (by simpa using hxt)).1
      rw [this] at hsub
      rw [List.sublist_nil.mp hsub]
      exact (List.nil_sublist _).subperm
  · intro hother
    have : spansOfTrace t ((log n).map (·.2)) = [] := List.filter_eq_nil_iff.mpr fun x hx hxt => by
      obtain ⟨y, hy, rfl⟩ := List.mem_map.mp hx
      have := (hentry y hy (by simpa using hxt)).1
      rw [← hps] at this
      obtain ⟨cl, hcl, e⟩ := List.mem_map.mp this
      exact hother cl hcl e
    rw [this] at hsub
    exact List.sublist_nil.mp hsub

end Verif
