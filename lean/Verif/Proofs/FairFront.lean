import Verif.Spec.FairFront
import Verif.Props.Oversize
import Verif.Proofs.Fair
import Verif.Props.Fair

/-!
# Progress in front of Kafka
-/

namespace Verif

open Spec

variable {part : List UInt8 → Nat}

/-- The messages that the dispatcher passed on. -/
def Front.dispatched (f : Front) : Int := (f.pool.sent.length : Int) - f.offered.toList.length - f.dispatching.toList.length

section moves

variable {o o' : List Parsed} {t t' : List (List UInt8 × List UInt8)} {f f' : Front}

theorem Front.Next.sent (h : Front.Next part o t f o' t' f') : f.pool.sent <+: f'.pool.sent := by
  cases h with
  | step h => cases h <;> first | exact List.prefix_rfl | exact List.prefix_append _ _
  | request o => exact List.prefix_rfl
  | stay => exact List.prefix_rfl

theorem Front.Next.flow (h : Front.Next part o t f o' t' f') : f.pool.sent.map (·.1) ++ f.http.channel <+: f'.pool.sent.map (·.1) ++ f'.http.channel := by
  cases h with
  | step h =>
    cases h with
    | http h =>
      cases h with
      | push hi hc => rw [← List.append_assoc]; exact List.prefix_append _ _
      | accept hi => exact List.prefix_rfl
      | reject hi => exact List.prefix_rfl
    | send ho hc hj hr he => rw [hc]; simp
    | _ => exact List.prefix_rfl
  | request o => exact List.prefix_rfl
  | stay => exact List.prefix_rfl

theorem Front.Next.topic (h : Front.Next part o t f o' t' f') : t <+: t' := by
  cases h with
  | step h => exact List.prefix_append _ _
  | request o => exact List.prefix_rfl
  | stay => exact List.prefix_rfl

theorem Front.Next.outcomes (h : Front.Next part o t f o' t' f') : o <+: o' := by
  cases h with
  | step h => exact List.prefix_rfl
  | request o => exact List.prefix_append _ _
  | stay => exact List.prefix_rfl

theorem Front.Next.encoders (h : Front.Next part o t f o' t' f') : f.pool.encoders.length ≤ f'.pool.encoders.length := by
  cases h with
  | step h => cases h <;> simp
  | request o => exact Nat.le_refl _
  | stay => exact Nat.le_refl _

theorem Front.Next.dispatched (h : Front.Next part o t f o' t' f') : f.dispatched ≤ f'.dispatched := by
  cases h with
  | step h =>
    cases h with
    | send ho hc hj hr he => simp only [Front.dispatched, ho, Option.toList_none, Option.toList_some, List.length_append, List.length_singleton, List.length_nil]; omega
    | input ho hd => simp only [Front.dispatched, ho, hd, Option.toList_none, Option.toList_some, List.length_singleton, List.length_nil]; omega
    | dispatch hd hs => simp only [Front.dispatched, hd, Option.toList_none, Option.toList_some, List.length_singleton, List.length_nil]; omega
    | _ => exact Int.le_refl _
  | request o => exact Int.le_refl _
  | stay => exact Int.le_refl _

/-- The dispatcher keeps its message until it passes it on. -/
theorem Front.Next.keeps (h : Front.Next part o t f o' t' f') (hd : f'.dispatched = f.dispatched) {m : Message} (hm : f.dispatching = some m) : f'.dispatching = some m := by
  cases h with
  | step h =>
    cases h with
    | input ho hd0 => rw [hm] at hd0; cases hd0
    | dispatch hd' hs =>
      simp only [Front.dispatched, hd', Option.toList_none, Option.toList_some, List.length_singleton, List.length_nil] at hd
      omega
    | _ => exact hm
  | request o => exact hm
  | stay => exact hm

/-- A message is offered until it is taken. -/
theorem Front.Next.offers (h : Front.Next part o t f o' t' f') (hd : f.dispatching = none) {m : Message} (hm : f.offered = some m) :
    f'.dispatching = some m ∨ f'.dispatching = none ∧ f'.offered = some m := by
  cases h with
  | step h =>
    cases h with
    | send ho _ _ _ _ => rw [hm] at ho; cases ho
    | input ho _ => rw [hm] at ho; cases ho; exact .inl rfl
    | dispatch hd' hs => rw [hd] at hd'; cases hd'
    | _ => exact .inr ⟨hd, hm⟩
  | request o => exact .inr ⟨hd, hm⟩
  | stay => exact .inr ⟨hd, hm⟩

theorem Front.Next.conn (h : Front.Next part o t f o' t' f') {i : Nat} {c : Conn} (hc : f.http.conns[i]? = some c) : f.Does part (.handler i) f' ∨ f'.http.conns[i]? = some c := by
  cases h with
  | step h =>
    cases h with
    | http h =>
      cases h with
      | @push j x rest hj hcap =>
        by_cases e : j = i
        · subst e; exact .inl (.push hj hcap)
        · right; dsimp only; rw [List.getElem?_set_ne e]; exact hc
      | @accept j hj =>
        by_cases e : j = i
        · subst e; exact .inl (.accept hj)
        · right; dsimp only; rw [List.getElem?_set_ne e]; exact hc
      | @reject j hj =>
        by_cases e : j = i
        · subst e; exact .inl (.reject hj)
        · right; dsimp only; rw [List.getElem?_set_ne e]; exact hc
    | _ => exact .inr hc
  | request o => right; dsimp only; rw [List.getElem?_append_left (List.getElem?_eq_some_iff.mp hc).1]; exact hc
  | stay => exact .inr hc

theorem front_handler {i : Nat} (h : f.Does part (.handler i) f') {c : Conn} (hc : f.http.conns[i]? = some c) : ∃ d, f'.http.conns[i]? = some d ∧ connWork d < connWork c := by
  have hi := (List.getElem?_eq_some_iff.mp hc).1
  cases h with
  | push h1 h2 =>
    rw [hc] at h1; cases h1
    exact ⟨_, List.getElem?_set_self hi, by simp [connWork]⟩
  | accept h1 =>
    rw [hc] at h1; cases h1
    exact ⟨_, List.getElem?_set_self hi, by decide⟩
  | reject h1 =>
    rw [hc] at h1; cases h1
    exact ⟨_, List.getElem?_set_self hi, by decide⟩

/-- If there is no room, nothing is pushed. -/
theorem Front.Next.full (h : Front.Next part o t f o' t' f') (hf : ¬ f.http.channel.length < 256) : f'.pool.sent.map (·.1) ++ f'.http.channel = f.pool.sent.map (·.1) ++ f.http.channel := by
  cases h with
  | step h =>
    cases h with
    | http h =>
      cases h with
      | push hi hc => exact absurd hc hf
      | accept hi => rfl
      | reject hi => rfl
    | send ho hc hj hr he => rw [hc]; simp
    | _ => rfl
  | request o => rfl
  | stay => rfl

/-- A message is on its way until it is written. -/
theorem Front.Next.inflight (h : Front.Next part o t f o' t' f') {m : Message} (hm : m ∈ f.inflight) :
    m ∈ f'.inflight ∨ ∃ v, t' = t ++ [(f.pool.heap.deref m.key, v)] := by
  cases h with
  | step h =>
    cases h with
    | dispatch hd hs => exact .inl (List.mem_append_left _ hm)
    | @produce x l l' hi hfirst =>
      rw [hi] at hm
      rcases List.mem_append.mp hm with hm | hm
      · exact .inl (List.mem_append_left _ hm)
      · rcases List.mem_cons.mp hm with rfl | hm
        · exact .inr ⟨_, rfl⟩
        · exact .inl (List.mem_append_right _ hm)
    | _ => exact .inl hm
  | request o => exact .inl hm
  | stay => exact .inl hm

end moves

/-! ## The order of messages in a partition -/

/-- The partition of a message. -/
def Sent.inPart (part : List UInt8 → Nat) (p : Nat) (x : Sent) : Bool := decide (part (littleEndian x.1.trace.toUInt64) = p)

/-- What is in the topic, and in each partition the messages in the order in which they were sent. -/
structure FrontOrder (part : List UInt8 → Nat) (topic : List (List UInt8 × List UInt8)) (prod fly rest live : List Sent) : Prop where
  topic : topic = prod.map fun x => (littleEndian x.1.trace.toUInt64, binaryEncode x.1 x.2.1)
  order : ∀ p, (prod ++ (fly ++ rest)).filter (Sent.inPart part p) = live.filter (Sent.inPart part p)
  last : ∃ l, live = l ++ rest

theorem FrontInv.step_order {outs log old prod fly rest live topic f f' e} (inv : FrontInv outs log (old ++ prod) fly rest f) (ord : FrontOrder part topic prod fly rest live) (h : f.Step part f' e) :
    ∃ log' prod' fly' rest' new, FrontInv outs log' (old ++ prod') fly' rest' f' ∧ FrontOrder part (topic ++ e.toList) prod' fly' rest' (live ++ new) ∧ f'.pool.sent = f.pool.sent ++ new ∧
      log <+: log' := by
  have stay : FrontOrder part (topic ++ Option.toList (none : Option (List UInt8 × List UInt8))) prod fly rest (live ++ []) := by simpa using ord
  cases h with
  | @http h e hs =>
    exact ⟨log ++ e.toList, prod, fly, rest, [], ⟨.step inv.http hs, inv.pool, inv.ranges, inv.msgs, inv.inflight, inv.before, inv.ok⟩, stay, by simp, List.prefix_append _ _⟩
  | new =>
    exact ⟨log, prod, fly, rest, [], ⟨inv.http, .step inv.pool (.new f.pool), inv.ranges, inv.msgs, inv.inflight, inv.before, inv.ok⟩, stay, by simp, List.prefix_rfl⟩
  | @send x r j enc enc' ord' h m ho hc hj hr he =>
    refine ⟨log, prod, fly, rest ++ [(x, ord', m)], [(x, ord', m)], ⟨?_, .step inv.pool (.encode hj he), ?_, ?_, inv.inflight, ?_, inv.ok⟩, ⟨by simpa using ord.topic, fun p => ?_, ?_⟩, rfl, List.prefix_rfl⟩
    · have := Http.Reachable.take inv.http hc
      simpa using this
    · intro y hy
      rcases List.mem_append.mp hy with hy | hy
      · exact inv.ranges y hy
      · rw [List.mem_singleton] at hy; subst hy; exact hr
    · have := inv.msgs.append_right [(x, ord', m)]
      simpa [List.append_assoc] using this
    · have := inv.before
      rw [ho] at this
      simp at this
      simp [this]
    · rw [← List.append_assoc, ← List.append_assoc, List.filter_append, List.append_assoc, ord.order p, List.filter_append]
    · obtain ⟨l, hl⟩ := ord.last
      exact ⟨l, by rw [hl, List.append_assoc]⟩
  | @input m ho hd =>
    refine ⟨log, prod, fly, rest, [], ⟨inv.http, inv.pool, inv.ranges, inv.msgs, inv.inflight, ?_, inv.ok⟩, stay, by simp, List.prefix_rfl⟩
    have := inv.before
    rw [ho, hd] at this
    simpa using this
  | @dispatch m hd hs =>
    have hb := inv.before
    rw [hd] at hb
    obtain ⟨l1, y, l2, rfl, h1, h2, h3⟩ := map_eq_append_cons (a := []) hb
    rw [List.map_eq_nil_iff] at h1
    subst h1
    have hmem : y ∈ (old ++ prod) ++ (fly ++ ([] ++ y :: l2)) := by simp
    obtain ⟨k1, k2⟩ := inv.deref hmem
    refine ⟨log, prod, fly ++ [y], l2, [], ⟨inv.http, inv.pool, inv.ranges, ?_, ?_, ?_, ?_⟩, ⟨by simpa using ord.topic, fun p => ?_, ?_⟩, by simp, List.prefix_rfl⟩
    · have := inv.msgs
      simpa [List.append_assoc] using this
    · rw [List.map_append, inv.inflight, List.map_cons, h2]; rfl
    · rw [h3]; rfl
    · intro x hx
      rw [← List.append_assoc] at hx
      rcases List.mem_append.mp hx with hx | hx
      · exact inv.ok x hx
      · rw [List.mem_singleton] at hx; subst hx
        refine ⟨?_, inv.ranges _ (inv.msgs.mem_iff.mp hmem)⟩
        rw [← k1, ← k2, h2]; exact hs
    · have := ord.order p
      simpa [List.append_assoc] using this
    · obtain ⟨l, hl⟩ := ord.last
      exact ⟨l ++ [y], by rw [hl]; simp⟩
  | @produce m l l' hi hfirst =>
    have hfly := inv.inflight
    rw [hi] at hfly
    obtain ⟨l1, y, l2, rfl, h1, h2, h3⟩ := map_eq_append_cons hfly
    have hmem : y ∈ (old ++ prod) ++ ((l1 ++ y :: l2) ++ rest) := by simp
    obtain ⟨k1, k2⟩ := inv.deref hmem
    refine ⟨log, prod ++ [y], l1 ++ l2, rest, [], ⟨inv.http, inv.pool, inv.ranges, ?_, ?_, inv.before, ?_⟩, ⟨?_, fun p => ?_, by simpa using ord.last⟩, by simp, List.prefix_rfl⟩
    · refine List.Perm.trans ?_ inv.msgs
      rw [← List.append_assoc old, List.append_assoc]
      refine List.Perm.append_left _ ?_
      rw [← List.append_assoc, ← List.append_assoc]
      refine List.Perm.append_right _ ?_
      rw [List.singleton_append]
      exact (List.perm_middle).symm
    · rw [List.map_append, h1, h3]
    · intro x hx
      apply inv.ok
      simp only [List.mem_append, List.mem_cons, List.not_mem_nil, or_false] at hx ⊢
      rcases hx with (h | h | h) | h | h
      · exact .inl (.inl h)
      · exact .inl (.inr h)
      · exact .inr (.inr (.inl h))
      · exact .inr (.inl h)
      · exact .inr (.inr (.inr h))
    · rw [ord.topic, List.map_append, ← h2, k1, k2]; rfl
    · rw [List.append_nil, ← ord.order p]
      simp only [List.filter_append, List.filter_cons, List.filter_nil, List.append_assoc]
      by_cases hp : Sent.inPart part p y = true
      · have hl1 : l1.filter (Sent.inPart part p) = [] := by
          refine List.filter_eq_nil_iff.mpr fun x hx hxp => ?_
          have hx' : x.2.2 ∈ l := by rw [← h1]; exact List.mem_map_of_mem hx
          have hxm : x ∈ (old ++ prod) ++ ((l1 ++ y :: l2) ++ rest) := by
            simp only [List.mem_append, List.mem_cons]
            exact .inr (.inl (.inl hx))
          have := hfirst _ hx'
          rw [(inv.deref hxm).1, ← h2, k1] at this
          unfold Sent.inPart at hp hxp
          exact this ((of_decide_eq_true hxp).trans (of_decide_eq_true hp).symm)
        simp [hp, hl1]
      · simp [hp]

theorem Front.Reachable.ordered {outcomes topic f} (h : Front.Reachable part outcomes topic f) : ∃ log prod fly rest, FrontInv outcomes log prod fly rest f ∧ FrontOrder part topic prod fly rest f.pool.sent := by
  induction h with
  | init => exact ⟨_, _, _, _, .init, rfl, fun _ => rfl, [], rfl⟩
  | request o _ ih => obtain ⟨_, _, _, _, inv, ord⟩ := ih; exact ⟨_, _, _, _, inv.request o, ord.topic, ord.order, ord.last⟩
  | step _ hs ih =>
    obtain ⟨_, _, _, _, inv, ord⟩ := ih
    obtain ⟨log', prod', fly', rest', new, inv', ord', e, _⟩ := inv.step_order (old := []) ord hs
    rw [← e] at ord'
    exact ⟨_, _, _, _, inv', ord'⟩

/-! ## Messages that get lost -/

/-- A message that gets lost counts as if it were in the topic. -/
theorem FrontInv.lose {outs log prod fly rest} {f : Front} (inv : FrontInv outs log prod fly rest f) {l l' : List Message} {m : Message} (hl : f.inflight = l ++ m :: l') :
    ∃ prod' fly', FrontInv outs log prod' fly' rest { f with inflight := l ++ l' } := by
  have hfly := inv.inflight
  rw [hl] at hfly
  obtain ⟨l1, y, l2, rfl, h3, h4, h5⟩ := map_eq_append_cons hfly
  refine ⟨prod ++ [y], l1 ++ l2, ⟨inv.http, inv.pool, inv.ranges, ?_, ?_, inv.before, ?_⟩⟩
  · refine List.Perm.trans ?_ inv.msgs
    rw [List.append_assoc]
    refine List.Perm.append_left _ ?_
    rw [← List.append_assoc, ← List.append_assoc]
    refine List.Perm.append_right _ ?_
    rw [List.singleton_append]
    exact (List.perm_middle).symm
  · rw [List.map_append, h3, h5]
  · intro x hx
    apply inv.ok
    simp only [List.mem_append, List.mem_cons, List.not_mem_nil, or_false] at hx ⊢
    rcases hx with (h | h) | h | h
    · exact .inl h
    · exact .inr (.inr (.inl h))
    · exact .inr (.inl h)
    · exact .inr (.inr (.inr h))

theorem Front.Lossy.inv {outcomes topic f} (h : Front.Lossy part outcomes topic f) : ∃ log prod fly rest, FrontInv outcomes log prod fly rest f := by
  induction h with
  | init => exact ⟨_, _, _, _, .init⟩
  | request o _ ih => obtain ⟨_, _, _, _, inv⟩ := ih; exact ⟨_, _, _, _, inv.request o⟩
  | step _ hs ih =>
    obtain ⟨_, _, _, _, inv⟩ := ih
    obtain ⟨_, _, _, _, inv', _⟩ := inv.step hs
    exact ⟨_, _, _, _, inv'⟩
  | lose _ hl ih =>
    obtain ⟨_, _, _, _, inv⟩ := ih
    obtain ⟨_, _, inv'⟩ := inv.lose hl
    exact ⟨_, _, _, _, inv'⟩

theorem Front.Reachable.lossy {outcomes topic f} (h : Front.Reachable part outcomes topic f) : Front.Lossy part outcomes topic f := by
  induction h with
  | init => exact .init
  | request o _ ih => exact .request o ih
  | step _ hs ih => exact .step ih hs

end Verif
