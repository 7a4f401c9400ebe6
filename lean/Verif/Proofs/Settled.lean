import Verif.Proofs.Cluster
import Verif.Spec.Fair

/-!
# Proxies with a fixed assignment of partitions
-/

namespace Verif

open Spec

variable {κ : Type} {conv : κ → Span → Option Span × κ} {k : κ} {part : List UInt8 → Nat}

/-- What the running callback still has to push. -/
def pendOf (conns : List Conn) (cl : Claim) : List Span :=
  match cl.busy with
  | none => []
  | some b => match conns[b]? with
    | some (.pushing l) => l
    | _ => []

/-- The calls of a partition. -/
def callsOf (p : Nat) (calls : List (Nat × Span)) : List Span := (calls.filter fun e => e.1 = p).map (·.2)

/-- What the calls of a partition pushed. -/
def pushedFor (p : Nat) (calls log : List (Nat × Span)) : List Span := (log.filter fun e => calls[e.1]?.map Prod.fst = some p).map (·.2)

/-- What is known about the claims of a proxy, wherever they started to read. `calls`: the partition and the span of each call of the callback. -/
structure ClaimsBase (ps : List Nat) (calls log : List (Nat × Span)) (n : Instance κ) : Prop where
  http : Http.Reachable 256 (calls.map fun e => Parsed.spans [e.2]) log n.back.world.received n.back.http
  parts : n.claims.map (·.partition) = ps
  nodup : ps.Nodup
  busy : ∀ cl ∈ n.claims, ∀ b, cl.busy = some b → calls[b]?.map Prod.fst = some cl.partition
  opened : ∀ b l, n.back.http.conns[b]? = some (.pushing l) → ∃ cl ∈ n.claims, cl.busy = some b
  order : ∀ cl ∈ n.claims, pushedFor cl.partition calls log ++ pendOf n.back.http.conns cl = callsOf cl.partition calls
  closed : ∀ p, p ∉ ps → pushedFor p calls log = callsOf p calls

/-- The claims of a proxy that read from the beginning. -/
structure ClaimsInv (ps : List Nat) (topic : Nat → List (List UInt8)) (calls log : List (Nat × Span)) (n : Instance κ) : Prop extends ClaimsBase ps calls log n where
  mine : ∀ e ∈ calls, e.1 ∈ ps ∧ ∃ v ∈ topic e.1, decodeKafkaMessage v = some e.2
  bound : ∀ cl ∈ n.claims, cl.offset ≤ (topic cl.partition).length
  read : ∀ cl ∈ n.claims, callsOf cl.partition calls = ((topic cl.partition).take cl.offset).filterMap decodeKafkaMessage

/-- The claims of a proxy before and after a step. -/
structure ClaimsMove (ps : List Nat) (topic : Nat → List (List UInt8)) (calls calls' : List (Nat × Span)) (n n' : Instance κ) : Prop where
  grow : calls <+: calls'
  mine : ∀ e ∈ calls', e ∈ calls ∨ e.1 ∈ ps ∧ ∃ v ∈ topic e.1, decodeKafkaMessage v = some e.2
  reads : ∀ cl' ∈ n'.claims, ∃ cl ∈ n.claims, cl.partition = cl'.partition ∧ cl.offset ≤ cl'.offset ∧ (cl.offset = cl'.offset ∨ cl'.offset ≤ (topic cl'.partition).length) ∧
    callsOf cl'.partition calls' = callsOf cl'.partition calls ++ (((topic cl'.partition).take cl'.offset).drop cl.offset).filterMap decodeKafkaMessage

theorem ClaimsInv.fresh (ps : List Nat) (h : ps.Nodup) (topic : Nat → List (List UInt8)) (now : Time) :
    ClaimsInv ps topic [] [] ({ claims := ps.map fun p => { partition := p, offset := 0 }, back := System.init k now } : Instance κ) := by
  refine ⟨⟨.init, ?_, h, ?_, ?_, ?_, fun _ _ => rfl⟩, by simp, ?_, ?_⟩
  · simp [Function.comp_def]
  · intro cl hcl b hb
    obtain ⟨p, _, rfl⟩ := List.mem_map.mp hcl
    cases hb
  · intro b l hb
    simp [System.init] at hb
  · intro cl hcl
    obtain ⟨p, _, rfl⟩ := List.mem_map.mp hcl
    rfl
  · intro cl hcl
    obtain ⟨p, _, rfl⟩ := List.mem_map.mp hcl
    exact Nat.zero_le _
  · intro cl hcl
    obtain ⟨p, _, rfl⟩ := List.mem_map.mp hcl
    simp [callsOf]

theorem ClaimsBase.front {ps calls log} {n : Instance κ} (inv : ClaimsBase ps calls log n) (f : Front) : ClaimsBase ps calls log { n with front := f } :=
  ⟨inv.http, inv.parts, inv.nodup, inv.busy, inv.opened, inv.order, inv.closed⟩

theorem ClaimsInv.front {ps topic calls log} {n : Instance κ} (inv : ClaimsInv ps topic calls log n) (f : Front) : ClaimsInv ps topic calls log { n with front := f } :=
  ⟨inv.toClaimsBase.front f, inv.mine, inv.bound, inv.read⟩

/-- Messages may be added to the topic. -/
theorem ClaimsInv.append {ps topic calls log} {n : Instance κ} (inv : ClaimsInv ps topic calls log n) (p : Nat) (v : List UInt8) :
    ClaimsInv ps (appendTopic topic p v) calls log n := by
  refine ⟨inv.toClaimsBase, ?_, ?_, ?_⟩
  · intro e he
    obtain ⟨h1, w, h2, h3⟩ := inv.mine e he
    exact ⟨h1, w, mem_appendTopic h2, h3⟩
  · intro cl hcl
    have := inv.bound cl hcl
    unfold appendTopic
    split
    · rw [List.length_append]; omega
    · exact this
  · intro cl hcl
    rw [inv.read cl hcl]
    unfold appendTopic
    split
    · rw [List.take_append_of_le_length (inv.bound cl hcl)]
    · rfl

/-- Partitions tell the claims of a proxy apart. -/
theorem ClaimsBase.claim_eq {ps calls log} {n : Instance κ} (inv : ClaimsBase ps calls log n) {i j : Nat} {a b : Claim} (ha : n.claims[i]? = some a) (hb : n.claims[j]? = some b)
    (h : a.partition = b.partition) : i = j := by
  have hnd := inv.nodup
  rw [← inv.parts] at hnd
  have h1 : (n.claims.map (·.partition))[i]? = some a.partition := by rw [List.getElem?_map, ha]; rfl
  have h2 : (n.claims.map (·.partition))[j]? = some a.partition := by rw [List.getElem?_map, hb, h]; rfl
  obtain ⟨hi, h1⟩ := List.getElem?_eq_some_iff.mp h1
  obtain ⟨hj, h2⟩ := List.getElem?_eq_some_iff.mp h2
  exact (List.getElem_inj hnd).mp (h1.trans h2.symm)

theorem map_partition_set {cs : List Claim} {j : Nat} {cl cl' : Claim} (h : cs[j]? = some cl) (hp : cl'.partition = cl.partition) :
    (cs.set j cl').map (·.partition) = cs.map (·.partition) := by
  apply List.ext_getElem?
  intro i
  rw [List.getElem?_map, List.getElem?_map]
  by_cases hij : j = i
  · subst hij
    rw [List.getElem?_set_self (List.getElem?_eq_some_iff.mp h).1, h]
    simp [hp]
  · rw [List.getElem?_set_ne hij]

theorem pendOf_set_ne {conns : List Conn} {i : Nat} {c : Conn} {cl : Claim} (h : cl.busy ≠ some i) : pendOf (conns.set i c) cl = pendOf conns cl := by
  unfold pendOf
  cases hb : cl.busy with
  | none => rfl
  | some b =>
    have : i ≠ b := fun e => h (by rw [hb, e])
    dsimp only
    rw [List.getElem?_set_ne this]

theorem pushedFor_snoc (p : Nat) (calls log : List (Nat × Span)) (e : Nat × Span) :
    pushedFor p calls (log ++ [e]) = pushedFor p calls log ++ if calls[e.1]?.map Prod.fst = some p then [e.2] else [] := by
  unfold pushedFor
  rw [List.filter_append, List.map_append]
  congr 1
  rw [List.filter_cons]
  split <;> simp_all

theorem pushedFor_calls (p : Nat) (calls log : List (Nat × Span)) (e : Nat × Span) (h : ∀ x ∈ log, x.1 < calls.length) : pushedFor p (calls ++ [e]) log = pushedFor p calls log := by
  unfold pushedFor
  congr 1
  apply List.filter_congr
  intro x hx
  rw [List.getElem?_append_left (h x hx)]

theorem callsOf_snoc (p : Nat) (calls : List (Nat × Span)) (e : Nat × Span) : callsOf p (calls ++ [e]) = callsOf p calls ++ if e.1 = p then [e.2] else [] := by
  unfold callsOf
  rw [List.filter_append, List.map_append]
  congr 1
  rw [List.filter_cons]
  split <;> simp_all

/-- Only the requests and the collector matter here. -/
theorem ClaimsBase.other {ps calls log} {n : Instance κ} (inv : ClaimsBase ps calls log n) {b : System κ} (h1 : b.http = n.back.http)
    (h2 : b.world.received = n.back.world.received) : ClaimsBase ps calls log { n with back := b } := by
  refine ⟨?_, inv.parts, inv.nodup, inv.busy, ?_, ?_, inv.closed⟩
  · dsimp only; rw [h1, h2]; exact inv.http
  · dsimp only; rw [h1]; exact inv.opened
  · dsimp only; rw [h1]; exact inv.order

theorem drop_take_self {α : Type} (l : List α) (i : Nat) : (l.take i).drop i = [] := List.drop_eq_nil_of_le (by rw [List.length_take]; omega)

/-- Nothing is read. -/
theorem ClaimsMove.none {ps topic calls} {n n' : Instance κ} (h : ∀ cl' ∈ n'.claims, ∃ cl ∈ n.claims, cl.partition = cl'.partition ∧ cl.offset = cl'.offset) : ClaimsMove ps topic calls calls n n' := by
  refine ⟨List.prefix_rfl, fun e he => .inl he, fun cl' hcl' => ?_⟩
  obtain ⟨cl, hcl, h1, h2⟩ := h cl' hcl'
  exact ⟨cl, hcl, h1, by omega, .inl h2, by rw [h2, drop_take_self]; simp⟩

theorem ClaimsMove.same {ps topic calls} {n n' : Instance κ} (h : n'.claims = n.claims) : ClaimsMove ps topic calls calls n n' := .none fun cl hcl => ⟨cl, by rw [← h]; exact hcl, rfl, rfl⟩

theorem ClaimsBase.next {ps topic calls log} {n n' : Instance κ} {x : Option Span} (inv : ClaimsBase ps calls log n) (h : n.Step conv topic n' x) :
    ∃ calls' log', System.Next conv (calls.map fun e => Parsed.spans [e.2]) n.back (calls'.map fun e => Parsed.spans [e.2]) n'.back ∧ log <+: log' ∧ ClaimsMove ps topic calls calls' n n' ∧
      ClaimsBase ps calls' log' n' := by
  have hlen : n.back.http.conns.length = calls.length := by
    have := (C33_all_or_nothing inv.http).1
    rwa [List.length_map] at this
  have hlog : ∀ x ∈ log, x.1 < calls.length := by
    have := (C33_all_or_nothing inv.http).2.2.1
    rwa [List.length_map] at this
  cases h with
  | @skip j cl v hj hb hv hd =>
    have hmem := List.mem_of_getElem? hj
    have hlt := (List.getElem?_eq_some_iff.mp hv).1
    refine ⟨calls, log, .stay, List.prefix_rfl, ⟨List.prefix_rfl, fun e he => .inl he, ?_⟩, inv.http, ?_, inv.nodup, ?_, ?_, ?_, inv.closed⟩
    · intro a ha
      rcases List.mem_or_eq_of_mem_set ha with h | rfl
      · exact ⟨a, h, rfl, Nat.le_refl _, .inl rfl, by rw [drop_take_self]; simp⟩
      · refine ⟨cl, hmem, rfl, Nat.le_succ _, .inr hlt, ?_⟩
        dsimp only
        rw [List.take_add_one, hv, List.drop_append_of_le_length (by rw [List.length_take]; omega), drop_take_self]
        simp [hd]
    · rw [← inv.parts]; exact map_partition_set hj rfl
    · intro a ha b hb'
      rcases List.mem_or_eq_of_mem_set ha with h | rfl
      · exact inv.busy a h b hb'
      · exact inv.busy cl hmem b hb'
    · intro b l hbl
      obtain ⟨a, ha, hab⟩ := inv.opened b l hbl
      obtain ⟨i, hi⟩ := List.getElem?_of_mem ha
      by_cases hij : j = i
      · subst hij
        rw [hj, Option.some.injEq] at hi; subst hi
        rw [hb] at hab; cases hab
      · refine ⟨a, List.mem_of_getElem? (i := i) ?_, hab⟩
        rw [List.getElem?_set_ne hij]; exact hi
    · intro a ha
      rcases List.mem_or_eq_of_mem_set ha with h | rfl
      · exact inv.order a h
      · exact inv.order cl hmem
  | @mark j cl i hj hb hi =>
    have hmem := List.mem_of_getElem? hj
    refine ⟨calls, log, .stay, List.prefix_rfl, .none ?_, inv.http, ?_, inv.nodup, ?_, ?_, ?_, inv.closed⟩
    · intro a ha
      rcases List.mem_or_eq_of_mem_set ha with h | rfl
      · exact ⟨a, h, rfl, rfl⟩
      · exact ⟨cl, hmem, rfl, rfl⟩
    · rw [← inv.parts]; exact map_partition_set hj rfl
    · intro a ha b hb'
      rcases List.mem_or_eq_of_mem_set ha with h | rfl
      · exact inv.busy a h b hb'
      · cases hb'
    · intro b l hbl
      obtain ⟨a, ha, hab⟩ := inv.opened b l hbl
      obtain ⟨i', hi'⟩ := List.getElem?_of_mem ha
      by_cases hij : j = i'
      · subst hij
        rw [hj, Option.some.injEq] at hi'; subst hi'
        rw [hb, Option.some.injEq] at hab; subst hab
        dsimp only at hbl
        rw [hi] at hbl; cases hbl
      · refine ⟨a, List.mem_of_getElem? (i := i') ?_, hab⟩
        rw [List.getElem?_set_ne hij]; exact hi'
    · intro a ha
      rcases List.mem_or_eq_of_mem_set ha with h | rfl
      · exact inv.order a h
      · have := inv.order cl hmem
        have hp : pendOf n.back.http.conns cl = [] := by unfold pendOf; rw [hb]; dsimp only; rw [hi]
        rw [hp] at this
        exact this
  | @call j cl v x hj hb hv hd =>
    have hmem := List.mem_of_getElem? hj
    have hlt := (List.getElem?_eq_some_iff.mp hv).1
    -- the claims other than this one have other partitions
    have hne : ∀ a ∈ n.claims.set j { cl with offset := cl.offset + 1, busy := some n.back.http.conns.length }, a = { cl with offset := cl.offset + 1, busy := some n.back.http.conns.length } ∨
        a ∈ n.claims ∧ cl.partition ≠ a.partition := by
      intro a ha
      obtain ⟨i, hi⟩ := List.getElem?_of_mem ha
      by_cases hij : j = i
      · subst hij
        rw [List.getElem?_set_self (List.getElem?_eq_some_iff.mp hj).1, Option.some.injEq] at hi
        exact .inl hi.symm
      · rw [List.getElem?_set_ne hij] at hi
        exact .inr ⟨List.mem_of_getElem? hi, fun e => hij (inv.claim_eq hj hi e)⟩
    have hpend : ∀ a ∈ n.claims, pendOf (n.back.http.conns ++ [Conn.start (.spans [x])]) a = pendOf n.back.http.conns a := by
      intro a ha
      unfold pendOf
      cases hab : a.busy with
      | none => rfl
      | some b =>
        have := inv.busy a ha b hab
        have hlt : b < calls.length := by
          cases hc : calls[b]? with
          | none => rw [hc] at this; cases this
          | some _ => exact (List.getElem?_eq_some_iff.mp hc).1
        dsimp only
        rw [List.getElem?_append_left (by rw [hlen]; exact hlt)]
    have hps : cl.partition ∈ ps := by rw [← inv.parts]; exact List.mem_map.mpr ⟨cl, hmem, rfl⟩
    refine ⟨calls ++ [(cl.partition, x)], log, by rw [List.map_append]; exact .request _, List.prefix_rfl, ⟨List.prefix_append _ _, ?_, ?_⟩, ?_, ?_, inv.nodup, ?_, ?_, ?_, ?_⟩
    · intro e he
      rcases List.mem_append.mp he with h | h
      · exact .inl h
      · rw [List.mem_singleton.mp h]
        exact .inr ⟨hps, v, List.mem_of_getElem? hv, hd⟩
    · intro a ha
      rw [callsOf_snoc]
      rcases hne a ha with rfl | ⟨h, hp⟩
      · refine ⟨cl, hmem, rfl, Nat.le_succ _, .inr hlt, ?_⟩
        dsimp only
        rw [if_pos rfl, List.take_add_one, hv, List.drop_append_of_le_length (by rw [List.length_take]; omega), drop_take_self]
        simp [hd]
      · exact ⟨a, h, rfl, Nat.le_refl _, .inl rfl, by rw [if_neg hp, drop_take_self]; simp⟩
    · have := Http.Reachable.arrive (.spans [x]) inv.http
      rw [List.map_append]; exact this
    · rw [← inv.parts]; exact map_partition_set hj rfl
    · intro a ha b hb'
      rcases hne a ha with rfl | ⟨h, _⟩
      · dsimp only at hb'
        rw [Option.some.injEq] at hb'; subst hb'
        rw [hlen]; simp
      · have := inv.busy a h b hb'
        have hlt : b < calls.length := by
          cases hc : calls[b]? with
          | none => rw [hc] at this; cases this
          | some _ => exact (List.getElem?_eq_some_iff.mp hc).1
        rw [List.getElem?_append_left hlt]
        exact this
    · intro b l hbl
      dsimp only at hbl
      by_cases hlt : b < n.back.http.conns.length
      · rw [List.getElem?_append_left hlt] at hbl
        obtain ⟨a, ha, hab⟩ := inv.opened b l hbl
        obtain ⟨i, hi⟩ := List.getElem?_of_mem ha
        by_cases hij : j = i
        · subst hij
          rw [hj, Option.some.injEq] at hi; subst hi
          rw [hb] at hab; cases hab
        · refine ⟨a, List.mem_of_getElem? (i := i) ?_, hab⟩
          rw [List.getElem?_set_ne hij]; exact hi
      · have hbl' := (List.getElem?_eq_some_iff.mp hbl).1
        rw [List.length_append, List.length_singleton] at hbl'
        have : b = n.back.http.conns.length := by omega
        subst this
        exact ⟨_, List.mem_of_getElem? (List.getElem?_set_self (List.getElem?_eq_some_iff.mp hj).1), rfl⟩
    · intro a ha
      rw [pushedFor_calls _ _ _ _ hlog, callsOf_snoc]
      rcases hne a ha with rfl | ⟨h, hp⟩
      · dsimp only
        rw [if_pos rfl]
        have := inv.order cl hmem
        have hp : pendOf n.back.http.conns cl = [] := by unfold pendOf; rw [hb]
        rw [hp, List.append_nil] at this
        rw [this]
        congr 1
        unfold pendOf
        simp [Conn.start]
      · rw [if_neg hp, List.append_nil]
        dsimp only
        rw [hpend a h]
        exact inv.order a h
    · intro p hp
      rw [pushedFor_calls _ _ _ _ hlog, callsOf_snoc, if_neg (fun e : cl.partition = p => hp (e ▸ hps)), List.append_nil]
      exact inv.closed p hp
  | @event b hs =>
    have hn := System.Next.event (conv := conv) (outcomes := calls.map fun e => Parsed.spans [e.2]) hs
    cases hs <;> exact ⟨calls, log, hn, List.prefix_rfl, .same rfl, inv.other rfl rfl⟩
  | @back b hs =>
    have hn := System.Next.step (outcomes := calls.map fun e => Parsed.spans [e.2]) hs
    cases hs with
    | emit => exact ⟨calls, log, hn, List.prefix_rfl, .same rfl, inv.other rfl rfl⟩
    | forward => exact ⟨calls, log, hn, List.prefix_rfl, .same rfl, inv.other rfl rfl⟩
    | sinkTake => exact ⟨calls, log, hn, List.prefix_rfl, .same rfl, inv.other rfl rfl⟩
    | sinkRead => exact ⟨calls, log, hn, List.prefix_rfl, .same rfl, inv.other rfl rfl⟩
    | ringTake => exact ⟨calls, log, hn, List.prefix_rfl, .same rfl, inv.other rfl rfl⟩
    | ringRead => exact ⟨calls, log, hn, List.prefix_rfl, .same rfl, inv.other rfl rfl⟩
    | @collect x rest now1 now2 ho hc h1 h2 =>
      exact ⟨calls, log, hn, List.prefix_rfl, .same rfl, .take inv.http hc, inv.parts, inv.nodup, inv.busy, inv.opened, inv.order, inv.closed⟩
    | @http h e hs =>
      refine ⟨calls, log ++ e.toList, hn, List.prefix_append _ _, .same rfl, ?_⟩
      have hreach := Http.Reachable.step inv.http hs
      cases hs with
      | @push i s rest hi hcap =>
        have hlt := (List.getElem?_eq_some_iff.mp hi).1
        obtain ⟨cl, hcl, hbusy⟩ := inv.opened i _ hi
        refine ⟨hreach, inv.parts, inv.nodup, inv.busy, ?_, ?_, ?_⟩
        · intro b l hbl
          by_cases hib : i = b
          · subst hib; exact ⟨cl, hcl, hbusy⟩
          · dsimp only at hbl
            rw [List.getElem?_set_ne hib] at hbl
            exact inv.opened b l hbl
        · intro a ha
          show pushedFor _ _ (log ++ [(i, s)]) ++ _ = _
          rw [pushedFor_snoc]
          have hown := inv.busy cl hcl i hbusy
          by_cases hp : cl.partition = a.partition
          · obtain ⟨i1, h1⟩ := List.getElem?_of_mem hcl
            obtain ⟨i2, h2⟩ := List.getElem?_of_mem ha
            have := inv.claim_eq h1 h2 hp
            subst this
            rw [h1, Option.some.injEq] at h2; subst h2
            dsimp only
            rw [if_pos hown, ← inv.order cl hcl]
            have e1 : pendOf n.back.http.conns cl = s :: rest := by unfold pendOf; rw [hbusy]; dsimp only; rw [hi]
            have e2 : pendOf (n.back.http.conns.set i (.pushing rest)) cl = rest := by
              unfold pendOf; rw [hbusy]; dsimp only; rw [List.getElem?_set_self hlt]
            rw [e1, e2]; simp
          · dsimp only
            rw [if_neg (fun e => hp (by rw [hown, Option.some.injEq] at e; exact e)), List.append_nil]
            have hb' : a.busy ≠ some i := by
              intro e
              have := inv.busy a ha i e
              rw [hown, Option.some.injEq] at this
              exact hp this
            rw [pendOf_set_ne hb']
            exact inv.order a ha
        · intro p hp
          show pushedFor _ _ (log ++ [(i, s)]) = _
          have hown := inv.busy cl hcl i hbusy
          have hps : cl.partition ∈ ps := by rw [← inv.parts]; exact List.mem_map.mpr ⟨cl, hcl, rfl⟩
          rw [pushedFor_snoc, if_neg (fun e => hp (by rw [hown, Option.some.injEq] at e; exact e ▸ hps)), List.append_nil]
          exact inv.closed p hp
      | @accept i hi =>
        have hlt := (List.getElem?_eq_some_iff.mp hi).1
        refine ⟨hreach, inv.parts, inv.nodup, inv.busy, ?_, ?_, fun p hp => by rw [show log ++ Option.toList (none : Option (Nat × Span)) = log from List.append_nil _]; exact inv.closed p hp⟩
        · intro b l hbl
          dsimp only at hbl
          by_cases hib : i = b
          · subst hib
            rw [List.getElem?_set_self hlt] at hbl; cases hbl
          · rw [List.getElem?_set_ne hib] at hbl
            exact inv.opened b l hbl
        · intro a ha
          show pushedFor _ _ (log ++ []) ++ _ = _
          rw [List.append_nil]
          have : pendOf (n.back.http.conns.set i (.answered 202)) a = pendOf n.back.http.conns a := by
            by_cases hb' : a.busy = some i
            · unfold pendOf
              rw [hb']; dsimp only
              rw [List.getElem?_set_self hlt, hi]
            · exact pendOf_set_ne hb'
          dsimp only
          rw [this]
          exact inv.order a ha
      | @reject i hi =>
        have hlt := (List.getElem?_eq_some_iff.mp hi).1
        refine ⟨hreach, inv.parts, inv.nodup, inv.busy, ?_, ?_, fun p hp => by rw [show log ++ Option.toList (none : Option (Nat × Span)) = log from List.append_nil _]; exact inv.closed p hp⟩
        · intro b l hbl
          dsimp only at hbl
          by_cases hib : i = b
          · subst hib
            rw [List.getElem?_set_self hlt] at hbl; cases hbl
          · rw [List.getElem?_set_ne hib] at hbl
            exact inv.opened b l hbl
        · intro a ha
          show pushedFor _ _ (log ++ []) ++ _ = _
          rw [List.append_nil]
          have : pendOf (n.back.http.conns.set i (.answered 400)) a = pendOf n.back.http.conns a := by
            by_cases hb' : a.busy = some i
            · unfold pendOf
              rw [hb']; dsimp only
              rw [List.getElem?_set_self hlt, hi]
            · exact pendOf_set_ne hb'
          dsimp only
          rw [this]
          exact inv.order a ha

theorem ClaimsInv.next {ps topic calls log} {n n' : Instance κ} {x : Option Span} (inv : ClaimsInv ps topic calls log n) (h : n.Step conv topic n' x) :
    ∃ calls' log', System.Next conv (calls.map fun e => Parsed.spans [e.2]) n.back (calls'.map fun e => Parsed.spans [e.2]) n'.back ∧ ClaimsInv ps topic calls' log' n' := by
  obtain ⟨calls', log', h1, _, hm, hb⟩ := inv.toClaimsBase.next h
  refine ⟨calls', log', h1, hb, fun e he => ?_, fun cl' hcl' => ?_, fun cl' hcl' => ?_⟩
  · rcases hm.mine e he with h | h
    · exact inv.mine e h
    · exact h
  · obtain ⟨cl, hcl, hp, _, ho, _⟩ := hm.reads cl' hcl'
    rcases ho with ho | ho
    · rw [← ho, ← hp]; exact inv.bound cl hcl
    · exact ho
  · obtain ⟨cl, hcl, hp, hle, _, hr⟩ := hm.reads cl' hcl'
    rw [hr, ← hp, inv.read cl hcl, ← List.filterMap_append]
    congr 1
    have := List.take_append_drop cl.offset ((topic cl.partition).take cl'.offset)
    rwa [List.take_take, Nat.min_eq_left hle] at this

/-! ## All proxies together -/

theorem ClaimsInv.step {ps topic calls log} {n n' : Instance κ} {x : Option Span} (inv : ClaimsInv ps topic calls log n) (h : n.Step conv topic n' x) :
    ∃ calls' log', ClaimsInv ps topic calls' log' n' := by
  obtain ⟨calls', log', _, h⟩ := inv.next h
  exact ⟨calls', log', h⟩


/-- The history of a proxy: see `FrontInv` and `ClaimsInv`. -/
structure Ghost where
  outs : List Parsed := []
  log : List (Nat × Span) := []
  prod : List Sent := []
  fly : List Sent := []
  rest : List Sent := []
  calls : List (Nat × Span) := []
  pushes : List (Nat × Span) := []

/-- The messages of a partition. -/
def messagesOf (part : List UInt8 → Nat) (p : Nat) (l : List Sent) : List (List UInt8) := (l.filter fun x => partitionOf part x.1.trace = p).map fun x => binaryEncode x.1 x.2.1

structure SettledInv (part : List UInt8 → Nat) (assignment : List (List Nat)) (outcomes : List Parsed) (gs : List Ghost) (c : Cluster κ) : Prop where
  length : gs.length = c.instances.length
  inst : ∀ (i : Nat) (n : Instance κ) (g : Ghost), c.instances[i]? = some n → gs[i]? = some g → FrontInv g.outs g.log g.prod g.fly g.rest n.front ∧ ∃ ps, assignment[i]? = some ps ∧ ClaimsInv ps c.topic g.calls g.pushes n
  outs : (gs.flatMap (·.outs)).Perm outcomes
  topic : ∀ p, (c.topic p).Perm (messagesOf part p (gs.flatMap (·.prod)))

theorem flatMap_set {α β : Type} {f : α → List β} {l : List α} {i : Nat} {a a' : α} {d : List β} (h : l[i]? = some a) (hf : f a' = f a ++ d) : ((l.set i a').flatMap f).Perm (l.flatMap f ++ d) := by
  induction l generalizing i with
  | nil => simp at h
  | cons x l ih =>
    cases i with
    | zero =>
      simp at h; subst h
      simp only [List.set_cons_zero, List.flatMap_cons, hf, List.append_assoc]
      exact List.Perm.append_left _ List.perm_append_comm
    | succ i =>
      simp only [List.getElem?_cons_succ] at h
      simp only [List.set_cons_succ, List.flatMap_cons, List.append_assoc]
      exact List.Perm.append_left _ (ih h)

theorem messagesOf_append (p : Nat) (l l' : List Sent) : messagesOf part p (l ++ l') = messagesOf part p l ++ messagesOf part p l' := by
  unfold messagesOf
  rw [List.filter_append, List.map_append]

theorem messagesOf_perm (p : Nat) {l l' : List Sent} (h : l.Perm l') : (messagesOf part p l).Perm (messagesOf part p l') := (h.filter _).map _

theorem ClaimsInv.deliver {ps topic calls log} {n : Instance κ} (inv : ClaimsInv ps topic calls log n) (e : Option (List UInt8 × List UInt8)) :
    ClaimsInv ps (deliverTopic part topic e) calls log n := by
  cases e with
  | none => exact inv
  | some e => exact inv.append _ _

theorem SettledInv.get {assignment outcomes gs} {c : Cluster κ} (inv : SettledInv part assignment outcomes gs c) {i : Nat} {n : Instance κ} (hi : c.instances[i]? = some n) : ∃ g, gs[i]? = some g := by
  have := (List.getElem?_eq_some_iff.mp hi).1
  exact ⟨_, List.getElem?_eq_getElem (by rw [inv.length]; exact this)⟩

theorem Cluster.Settled.inv {assignment : List (List Nat)} (hnd : ∀ ps ∈ assignment, ps.Nodup) {outcomes} {c : Cluster κ} (h : Cluster.Settled conv k part assignment outcomes c) :
    ∃ gs, SettledInv part assignment outcomes gs c := by
  induction h with
  | init now =>
    refine ⟨assignment.map fun _ => {}, by simp [Cluster.assigned], ?_, ?_, ?_⟩
    · intro i n g hi hg
      simp only [Cluster.assigned, List.getElem?_map] at hi hg
      obtain ⟨ps, hps, rfl⟩ := Option.map_eq_some_iff.mp hi
      rw [hps] at hg
      simp at hg; subst hg
      exact ⟨.init, ps, hps, .fresh ps (hnd ps (List.mem_of_getElem? hps)) _ now⟩
    · have : (assignment.map fun _ => ({} : Ghost)).flatMap (·.outs) = [] := by simp [List.flatMap_eq_nil_iff]
      rw [this]
    · intro p
      have : (assignment.map fun _ => ({} : Ghost)).flatMap (·.prod) = [] := by simp [List.flatMap_eq_nil_iff]
      rw [this]; exact .refl _
  | @request outcomes c i n o _ hi ih =>
    obtain ⟨gs, inv⟩ := ih
    obtain ⟨g, hg⟩ := inv.get hi
    have hlt := (List.getElem?_eq_some_iff.mp hi).1
    have hgt := (List.getElem?_eq_some_iff.mp hg).1
    refine ⟨gs.set i { g with outs := g.outs ++ [o] }, by simp [inv.length], ?_, ?_, ?_⟩
    · intro i' n' g' hi' hg'
      by_cases hii : i = i'
      · subst hii
        dsimp only at hi'
        rw [List.getElem?_set_self hlt, Option.some.injEq] at hi'
        rw [List.getElem?_set_self hgt, Option.some.injEq] at hg'
        subst hi'; subst hg'
        obtain ⟨h1, ps, h2, h3⟩ := inv.inst i n g hi hg
        exact ⟨h1.request o, ps, h2, h3.front _⟩
      · dsimp only at hi'
        rw [List.getElem?_set_ne hii] at hi' hg'
        exact inv.inst i' n' g' hi' hg'
    · exact (flatMap_set hg rfl).trans (inv.outs.append_right _)
    · intro p
      refine (inv.topic p).trans (messagesOf_perm p ?_)
      have := flatMap_set (f := Ghost.prod) (a' := { g with outs := g.outs ++ [o] }) (d := []) hg (by simp)
      rw [List.append_nil] at this
      exact this.symm
  | @step outcomes c c' _ hs ih =>
    obtain ⟨gs, inv⟩ := ih
    cases hs with
    | @front i n f e hi hs =>
      obtain ⟨g, hg⟩ := inv.get hi
      have hlt := (List.getElem?_eq_some_iff.mp hi).1
      have hgt := (List.getElem?_eq_some_iff.mp hg).1
      obtain ⟨h1, ps, h2, h3⟩ := inv.inst i n g hi hg
      obtain ⟨log', prod', fly', rest', h4, h5⟩ := h1.step hs
      refine ⟨gs.set i { g with log := log', prod := prod', fly := fly', rest := rest' }, by simp [inv.length], ?_, ?_, ?_⟩
      · intro i' n' g' hi' hg'
        by_cases hii : i = i'
        · subst hii
          dsimp only at hi'
          rw [List.getElem?_set_self hlt, Option.some.injEq] at hi'
          rw [List.getElem?_set_self hgt, Option.some.injEq] at hg'
          subst hi'; subst hg'
          exact ⟨h4, ps, h2, (h3.deliver e).front _⟩
        · dsimp only at hi'
          rw [List.getElem?_set_ne hii] at hi' hg'
          obtain ⟨k1, ps', k2, k3⟩ := inv.inst i' n' g' hi' hg'
          exact ⟨k1, ps', k2, k3.deliver e⟩
      · have := flatMap_set (f := Ghost.outs) (a' := { g with log := log', prod := prod', fly := fly', rest := rest' }) (d := []) hg (by simp)
        rw [List.append_nil] at this
        exact this.trans inv.outs
      · intro p
        rcases h5 with ⟨rfl, rfl⟩ | ⟨x, rfl, _, _, rfl⟩
        · refine (inv.topic p).trans (messagesOf_perm p ?_)
          have := flatMap_set (f := Ghost.prod) (a' := { g with log := log', prod := g.prod, fly := fly', rest := rest' }) (d := []) hg (by simp)
          rw [List.append_nil] at this
          exact this.symm
        · have := messagesOf_perm (part := part) p (flatMap_set (f := Ghost.prod) (a' := { g with log := log', prod := g.prod ++ [x], fly := fly', rest := rest' }) (d := [x]) hg rfl)
          refine List.Perm.trans ?_ this.symm
          rw [messagesOf_append]
          show (appendTopic c.topic (partitionOf part x.1.trace) (binaryEncode x.1 x.2.1) p).Perm _
          unfold appendTopic
          by_cases hp : p = partitionOf part x.1.trace
          · rw [if_pos hp]
            have : messagesOf part p [x] = [binaryEncode x.1 x.2.1] := by simp [messagesOf, hp]
            rw [this]
            exact (inv.topic p).append_right _
          · rw [if_neg hp]
            have : messagesOf part p [x] = [] := by
              unfold messagesOf
              rw [List.filter_cons_of_neg (by simp; exact fun e => hp e.symm)]; rfl
            rw [this, List.append_nil]
            exact inv.topic p
    | @back i n n' x hi hs =>
      obtain ⟨g, hg⟩ := inv.get hi
      have hlt := (List.getElem?_eq_some_iff.mp hi).1
      have hgt := (List.getElem?_eq_some_iff.mp hg).1
      obtain ⟨h1, ps, h2, h3⟩ := inv.inst i n g hi hg
      obtain ⟨calls', log', h4⟩ := h3.step hs
      have hfront : n'.front = n.front := by cases hs <;> rfl
      refine ⟨gs.set i { g with calls := calls', pushes := log' }, by simp [inv.length], ?_, ?_, ?_⟩
      · intro i' m g' hi' hg'
        by_cases hii : i = i'
        · subst hii
          dsimp only at hi'
          rw [List.getElem?_set_self hlt, Option.some.injEq] at hi'
          rw [List.getElem?_set_self hgt, Option.some.injEq] at hg'
          subst hi'; subst hg'
          rw [hfront]
          exact ⟨h1, ps, h2, h4⟩
        · dsimp only at hi'
          rw [List.getElem?_set_ne hii] at hi' hg'
          exact inv.inst i' m g' hi' hg'
      · have := flatMap_set (f := Ghost.outs) (a' := { g with calls := calls', pushes := log' }) (d := []) hg (by simp)
        rw [List.append_nil] at this
        exact this.trans inv.outs
      · intro p
        refine (inv.topic p).trans (messagesOf_perm p ?_)
        have := flatMap_set (f := Ghost.prod) (a' := { g with calls := calls', pushes := log' }) (d := []) hg (by simp)
        rw [List.append_nil] at this
        exact this.symm

/-! ## Consequences -/

/-- What is in a partition. -/
theorem SettledInv.value {assignment outcomes gs} {c : Cluster κ} (inv : SettledInv part assignment outcomes gs c) {p : Nat} {v : List UInt8} (hv : v ∈ c.topic p) :
    ∃ x : Sent, SentOk x ∧ v = binaryEncode x.1 x.2.1 ∧ p = partitionOf part x.1.trace := by
  have := (inv.topic p).mem_iff.mp hv
  unfold messagesOf at this
  obtain ⟨x, hx, rfl⟩ := List.mem_map.mp this
  obtain ⟨hx, hp⟩ := List.mem_filter.mp hx
  obtain ⟨g, hg, hx⟩ := List.mem_flatMap.mp hx
  obtain ⟨i, hi⟩ := List.getElem?_of_mem hg
  have hlt : i < c.instances.length := by rw [← inv.length]; exact (List.getElem?_eq_some_iff.mp hi).1
  obtain ⟨h1, _⟩ := inv.inst i _ g (List.getElem?_eq_getElem hlt) hi
  exact ⟨x, h1.ok x (List.mem_append_left _ hx), rfl, (of_decide_eq_true hp).symm⟩

theorem SettledInv.decoded {assignment outcomes gs} {c : Cluster κ} (inv : SettledInv part assignment outcomes gs c) {p : Nat} {v : List UInt8} (hv : v ∈ c.topic p) {x : Span}
    (hd : decodeKafkaMessage v = some x) : p = partitionOf part x.trace := by
  obtain ⟨y, h1, rfl, rfl⟩ := inv.value hv
  rw [h1.decode, Option.some.injEq] at hd
  rw [← hd]; rfl

/-- What a call pushed is its span. -/
theorem ClaimsBase.entry {ps calls log} {n : Instance κ} (inv : ClaimsBase ps calls log n) {e : Nat × Span} (he : e ∈ log) : ∃ q, calls[e.1]? = some (q, e.2) := by
  obtain ⟨hl, hall, hlt, _⟩ := C33_all_or_nothing inv.http
  have hi := hlt e he
  have hi' : e.1 < n.back.http.conns.length := by rw [hl]; exact hi
  have hp' : e.2 ∈ pushedBy e.1 log := List.mem_map.mpr ⟨e, List.mem_filter.mpr ⟨he, by simp⟩, rfl⟩
  have hic : e.1 < calls.length := by rwa [List.length_map] at hi
  have ho : (calls.map fun e => Parsed.spans [e.2])[e.1]? = some (.spans [calls[e.1].2]) := by
    rw [List.getElem?_map, List.getElem?_eq_getElem hic]; rfl
  have hao := hall e.1 _ _ ho (List.getElem?_eq_getElem hi')
  refine ⟨calls[e.1].1, ?_⟩
  rw [List.getElem?_eq_getElem hic]
  congr 1
  have key : e.2 = calls[e.1].2 := by
    generalize calls[e.1].2 = y at hao
    generalize pushedBy e.1 log = pushed at hp' hao
    generalize n.back.http.conns[e.1] = c at hao
    generalize ho' : Parsed.spans [y] = o at hao
    cases hao with
    | pushing =>
      injection ho' with h
      have : e.2 ∈ [y] := by rw [h]; exact List.mem_append_left _ hp'
      exact List.mem_singleton.mp this
    | accepted =>
      injection ho' with h
      rw [← h] at hp'
      exact List.mem_singleton.mp hp'
    | failing => cases ho'
    | rejected => cases ho'
    | panicked => cases ho'
    | waiting => cases ho'
  rw [key]

/-- The spans of a trace come through its partition. -/
theorem ClaimsInv.trace {ps topic calls log} {n : Instance κ} (inv : ClaimsInv ps topic calls log n)
    (ht : ∀ p v x, v ∈ topic p → decodeKafkaMessage v = some x → p = partitionOf part x.trace) (t : Id) :
    spansOfTrace t (log.map (·.2)) = spansOfTrace t (pushedFor (partitionOf part t) calls log) := by
  unfold spansOfTrace pushedFor
  rw [List.filter_map, List.filter_map, List.filter_filter]
  congr 1
  apply List.filter_congr
  intro e he
  obtain ⟨q, hq⟩ := inv.entry he
  simp only [Function.comp_apply, hq, Option.map_some, Option.some.injEq]
  by_cases h : e.2.trace = t
  · obtain ⟨_, v, hv, hd⟩ := inv.mine _ (List.mem_of_getElem? hq)
    have := ht _ _ _ hv hd
    dsimp only at this
    simp [h, this]
  · simp [h]

theorem flatMap_congr' {α β : Type} {f g : α → List β} {l : List α} (h : ∀ i ∈ l, f i = g i) : l.flatMap f = l.flatMap g := by
  rw [List.flatMap_def, List.flatMap_def, List.map_congr_left h]

theorem perm_flatMap_if {α β : Type} [DecidableEq α] {a : α} {x : β} {f : α → List β} {l : List α} (hn : l.Nodup) (ha : a ∈ l) :
    (l.flatMap fun i => if a = i then x :: f i else f i).Perm (x :: l.flatMap f) := by
  induction l with
  | nil => cases ha
  | cons y l ih =>
    rw [List.nodup_cons] at hn
    simp only [List.flatMap_cons]
    by_cases h : a = y
    · subst h
      rw [if_pos rfl]
      have : (l.flatMap fun i => if a = i then x :: f i else f i) = l.flatMap f := by
        apply flatMap_congr'
        intro i hi
        rw [if_neg (fun e : a = i => hn.1 (e ▸ hi))]
      rw [this]; exact .refl _
    · rw [if_neg h]
      have := ih hn.2 (by rcases List.mem_cons.mp ha with h' | h'; exact absurd h' h; exact h')
      exact (List.Perm.append_left _ this).trans List.perm_middle

/-- The log is made of what the requests pushed. -/
theorem log_perm (n : Nat) (log : List (Nat × Span)) (h : ∀ e ∈ log, e.1 < n) : ((List.range n).flatMap fun i => pushedBy i log).Perm (log.map (·.2)) := by
  induction log with
  | nil =>
    have : ((List.range n).flatMap fun i => pushedBy i []) = [] := by simp [pushedBy]
    rw [this]; exact .refl _
  | cons e log ih =>
    have e1 : ((List.range n).flatMap fun i => pushedBy i (e :: log)) = (List.range n).flatMap fun i => if e.1 = i then e.2 :: pushedBy i log else pushedBy i log := by
      apply flatMap_congr'
      intro i _
      unfold pushedBy
      rw [List.filter_cons]
      by_cases h : e.1 = i <;> simp [h]
    rw [e1]
    refine (perm_flatMap_if List.nodup_range (List.mem_range.mpr (h e (by simp)))).trans ?_
    rw [List.map_cons]
    exact (ih (fun x hx => h x (List.mem_cons_of_mem _ hx))).cons _

theorem flatMap_range {α β : Type} (f : α → List β) (l : List α) (g : Nat → List β) (h : ∀ i a, l[i]? = some a → g i = f a) : (List.range l.length).flatMap g = l.flatMap f := by
  induction l generalizing g with
  | nil => rfl
  | cons x l ih =>
    rw [List.length_cons, List.range_succ_eq_map, List.flatMap_cons, List.flatMap_cons, h 0 x rfl, List.flatMap_map]
    congr 1
    exact ih _ (fun i a hi => h (i + 1) a (by simpa using hi))

/-- When all requests are done, everything they had is pushed. -/
theorem http_done {cap : Nat} {outs : List Parsed} {log : List (Nat × Span)} {taken : List Span} {h : Http} (hr : Http.Reachable cap outs log taken h)
    (hd : ∀ c ∈ h.conns, c ≠ .failing ∧ ∀ l, c ≠ .pushing l) : (acceptedSpans outs).Perm (log.map (·.2)) := by
  obtain ⟨hl, hall, hlt, _⟩ := C33_all_or_nothing hr
  refine List.Perm.trans ?_ (log_perm outs.length log hlt)
  unfold acceptedSpans
  rw [← flatMap_range _ outs (fun i => pushedBy i log)]
  intro i o hi
  have hi' : i < h.conns.length := by rw [hl]; exact (List.getElem?_eq_some_iff.mp hi).1
  have hao := hall i _ _ hi (List.getElem?_eq_getElem hi')
  have hc := hd _ (List.getElem_mem hi')
  generalize h.conns[i] = c at hao hc
  generalize pushedBy i log = pushed at hao
  cases hao with
  | pushing => exact absurd rfl (hc.2 _)
  | accepted => rfl
  | failing => rfl
  | rejected => rfl
  | panicked => rfl
  | waiting => rfl

/-- What the topic has of a trace is what the proxies produced. -/
theorem SettledInv.inTopic {assignment outcomes gs} {c : Cluster κ} (inv : SettledInv part assignment outcomes gs c) (t : Id) :
    (spansOfTrace t ((c.topic (partitionOf part t)).filterMap decodeKafkaMessage)).Perm (((gs.flatMap (·.prod)).map (·.1.withTags)).filter fun s => s.trace = t) := by
  refine List.Perm.trans (((inv.topic _).filterMap _).filter _) ?_
  have all : ∀ x ∈ gs.flatMap (·.prod), SentOk x := by
    intro x hx
    obtain ⟨g, hg, hx⟩ := List.mem_flatMap.mp hx
    obtain ⟨i, hi⟩ := List.getElem?_of_mem hg
    have hlt : i < c.instances.length := by rw [← inv.length]; exact (List.getElem?_eq_some_iff.mp hi).1
    obtain ⟨h1, _⟩ := inv.inst i _ g (List.getElem?_eq_getElem hlt) hi
    exact h1.ok x (List.mem_append_left _ hx)
  have dec : ∀ l : List Sent, (∀ x ∈ l, SentOk x) → ((messagesOf part (partitionOf part t) l).filterMap decodeKafkaMessage).filter (fun s => s.trace = t) =
      (l.map (·.1.withTags)).filter (fun s => s.trace = t) := by
    intro l hl
    induction l with
    | nil => rfl
    | cons x l ih =>
      have ih := ih (fun y hy => hl y (List.mem_cons_of_mem _ hy))
      have hx := hl x (by simp)
      rw [show x :: l = [x] ++ l from rfl, messagesOf_append, List.filterMap_append, List.filter_append, ih, List.map_append, List.filter_append]
      congr 1
      unfold messagesOf
      by_cases hp : partitionOf part x.1.trace = partitionOf part t
      · rw [List.filter_cons_of_pos (by simpa using hp)]
        simp only [List.filter_nil, List.map_cons, List.map_nil, List.filterMap_cons, hx.decode, List.filterMap_nil]
      · rw [List.filter_cons_of_neg (by simpa using hp)]
        have : x.1.withTags.trace ≠ t := fun e => hp (by rw [← e]; rfl)
        simp [this]
  rw [dec _ all]

end Verif
