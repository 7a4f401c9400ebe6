import Verif.Spec.Oversize
import Verif.Proofs.Cluster

/-!
# Spans that are too large for Kafka: C70
-/

namespace Verif

open Spec

variable {part : List UInt8 → Nat} {outcomes : List Parsed} {topic : List (List UInt8 × List UInt8)} {f : Front}

theorem Front.Reachable.inv (h : Front.Reachable part outcomes topic f) : ∃ log prod fly rest, FrontInv outcomes log prod fly rest f := by
  induction h with
  | init => exact ⟨_, _, _, _, .init⟩
  | request o _ ih => obtain ⟨_, _, _, _, inv⟩ := ih; exact ⟨_, _, _, _, inv.request o⟩
  | step _ hs ih =>
    obtain ⟨_, _, _, _, inv⟩ := ih
    obtain ⟨_, _, _, _, inv', _⟩ := inv.step hs
    exact ⟨_, _, _, _, inv'⟩

theorem Front.Reachable.later (h : Front.Reachable part outcomes topic f) {outcomes' topic' g} (hl : f.Later part outcomes' topic' g) :
    Front.Reachable part (outcomes ++ outcomes') (topic ++ topic') g := by
  induction hl with
  | refl => simpa using h
  | request o _ ih => rw [← List.append_assoc]; exact ih.request o
  | step _ hs ih => rw [← List.append_assoc]; exact ih.step hs

theorem Front.Later.trans {a b g : Front} {o o' : List Parsed} {t t' : List (List UInt8 × List UInt8)} (h : a.Later part o t b) (h' : b.Later part o' t' g) : a.Later part (o ++ o') (t ++ t') g := by
  induction h' with
  | refl => simpa using h
  | request o _ ih => rw [← List.append_assoc]; exact ih.request o
  | step _ hs ih => rw [← List.append_assoc]; exact ih.step hs

/-- The spans a request left in the channel are there for the sender. -/
theorem Http.Reachable.cap {cap : Nat} {outs log taken h} (hr : Http.Reachable cap outs log taken h) : h.channel.length ≤ cap := by
  induction hr with
  | init => exact Nat.zero_le _
  | arrive _ _ ih => exact ih
  | step _ hs ih =>
    cases hs with
    | push hi hc => simp only [List.length_append, List.length_singleton]; omega
    | accept => exact ih
    | reject => exact ih
  | take _ hc ih => rw [hc] at ih; simp only [List.length_cons] at ih; dsimp only; omega

/-- C70, what is wrong: once the dispatcher has a message that is too large, it has it for ever; only what was on its way gets into the topic, and the sender takes at most one more span. -/
theorem C70_stuck (h : Front.Reachable part outcomes topic f) (hs : f.Stuck) {outcomes' topic' g} (hl : f.Later part outcomes' topic' g) :
    g.Stuck ∧ g.dispatching = f.dispatching ∧ topic'.length + g.inflight.length = f.inflight.length ∧
    g.pool.sent.length + f.offered.toList.length = f.pool.sent.length + g.offered.toList.length := by
  induction hl with
  | refl => exact ⟨hs, rfl, by simp, rfl⟩
  | request o _ ih => exact ih
  | @step outcomes' topic' g g' e hl st ih =>
    obtain ⟨⟨m, hm, hbig⟩, h2, h3, h4⟩ := ih
    obtain ⟨_, _, _, _, inv⟩ := (h.later hl).inv
    cases st with
    | http st => exact ⟨⟨m, hm, hbig⟩, h2, by simpa using h3, h4⟩
    | new => exact ⟨⟨m, hm, hbig⟩, h2, by simpa using h3, h4⟩
    | @send x r j enc enc' ord hp m' ho hc hj hr he =>
      refine ⟨⟨m, hm, ?_⟩, h2, by simpa using h3, ?_⟩
      · have st : g.Step part _ none := .send ho hc hj hr he
        obtain ⟨_, _, _, _, inv', _⟩ := inv.step st
        have hb := inv.before
        rw [hm] at hb
        obtain ⟨l1, y, l2, rfl, _, hy, _⟩ := map_eq_append_cons (a := []) hb
        have hmem : y ∈ g.pool.sent := inv.msgs.mem_iff.mp (by simp)
        obtain ⟨k1, k2⟩ := C10_no_alias _ inv.pool _ hmem
        obtain ⟨k3, k4⟩ := C10_no_alias _ inv'.pool y (List.mem_append_left _ hmem)
        rw [← hy] at hbig ⊢
        rw [k1, k2] at hbig
        rw [k3, k4]; exact hbig
      · rw [ho] at h4
        simp only [List.length_append, List.length_singleton, Option.toList_some, Option.toList_none, List.length_nil] at h4 ⊢
        omega
    | input ho hd => rw [hm] at hd; cases hd
    | dispatch hd hsz =>
      rw [hm, Option.some.injEq] at hd
      subst hd; omega
    | @produce m' l l' hi hfirst =>
      refine ⟨⟨m, hm, hbig⟩, h2, ?_, h4⟩
      rw [hi] at h3
      simp only [List.length_append, List.length_cons, Option.toList_some, List.length_nil] at h3 ⊢
      omega

/-- What is pushed later comes after what was pushed before. -/
theorem Front.Later.http {log : List (Nat × Span)} (hr : Http.Reachable 256 outcomes log (f.pool.sent.map (·.1)) f.http) {outcomes' topic' g} (hl : f.Later part outcomes' topic' g) :
    ∃ new, Http.Reachable 256 (outcomes ++ outcomes') (log ++ new) (g.pool.sent.map (·.1)) g.http := by
  induction hl with
  | refl => exact ⟨[], by simpa using hr⟩
  | request o _ ih => obtain ⟨new, ih⟩ := ih; exact ⟨new, by rw [← List.append_assoc]; exact .arrive o ih⟩
  | @step outcomes' topic' g g' e hl st ih =>
    obtain ⟨new, ih⟩ := ih
    cases st with
    | @http h e st => exact ⟨new ++ e.toList, by rw [← List.append_assoc]; exact .step ih st⟩
    | new => exact ⟨new, ih⟩
    | send ho hc hj hr he =>
      refine ⟨new, ?_⟩
      have := Http.Reachable.take ih hc
      simpa using this
    | input ho hd => exact ⟨new, ih⟩
    | dispatch hd hsz => exact ⟨new, ih⟩
    | produce hi hfirst => exact ⟨new, ih⟩

/-- C70, what is wrong: from then on all requests together get rid of at most 257 more spans, so that a request with more spans is never answered. -/
theorem C70_unanswered (h : Front.Reachable part outcomes topic f) (hs : f.Stuck) {outcomes' topic' g} (hl : f.Later part outcomes' topic' g) {i : Nat} {l : List Span}
    (hi : outcomes'[i]? = some (.spans l)) (hlen : 257 < l.length) (code : Nat) : g.http.conns[f.http.conns.length + i]? ≠ some (.answered code) := by
  intro hc
  obtain ⟨log, _, _, _, inv⟩ := h.inv
  obtain ⟨new, hr⟩ := hl.http inv.http
  obtain ⟨a1, _, a3, a4⟩ := C33_all_or_nothing inv.http
  obtain ⟨_, b2, _, b4⟩ := C33_all_or_nothing hr
  obtain ⟨_, _, _, hsent⟩ := C70_stuck h hs hl
  have ho : (outcomes ++ outcomes')[f.http.conns.length + i]? = some (.spans l) := by
    rw [List.getElem?_append_right (by omega), a1, Nat.add_sub_cancel_left]; exact hi
  have := b2 _ _ _ ho hc
  have hp : pushedBy (f.http.conns.length + i) log = [] := by
    unfold pushedBy
    rw [List.map_eq_nil_iff, List.filter_eq_nil_iff]
    intro e he
    have := a3 e he
    simp
    omega
  rw [pushedBy_append, hp, List.nil_append] at this
  have hle : (pushedBy (f.http.conns.length + i) new).length ≤ new.length := by
    unfold pushedBy
    rw [List.length_map]; exact List.length_filter_le _ _
  generalize pushedBy (f.http.conns.length + i) new = pushed at this hle
  cases this
  have l1 := congrArg List.length a4
  have l2 := congrArg List.length b4
  have l3 := hr.cap
  have l4 : g.offered.toList.length ≤ 1 := by cases g.offered <;> simp
  simp only [List.length_map, List.length_append] at l1 l2
  omega

/-- A large span. -/
def largeSpan : Span := { id := 1, trace := 1, name := List.replicate (768 * 1024) 120 }

theorem largeSpan_large (ord : List (Str × Str)) : maxMessageBytes < messageSize (littleEndian largeSpan.trace.toUInt64) (binaryEncode largeSpan ord) := by
  have h := writeString_length largeSpan.name
  have hl : largeSpan.name.length = 768 * 1024 := List.length_replicate
  unfold messageSize maxMessageBytes binaryEncode
  simp only [List.length_append]
  omega

/-- C70: it is false that every request is answered and that the spans of accepted requests get to Kafka, whatever spans others send: after a request with one large span, which is
accepted, requests are not answered and nothing gets into the topic any more. -/
theorem C70_fails (part : List UInt8 → Nat) : ∃ f, Front.Reachable part [.spans [largeSpan]] [] f ∧ f.http.conns = [.answered 202] ∧
    ∀ outcomes' topic' g, f.Later part outcomes' topic' g → topic' = [] ∧
      ∀ (i : Nat) l, outcomes'[i]? = some (.spans l) → 257 < l.length → ∀ code, g.http.conns[1 + i]? ≠ some (.answered code) := by
  suffices key : ∃ f ord m, Front.Reachable part [.spans [largeSpan]] [] f ∧ f.http.conns = [.answered 202] ∧ f.dispatching = some m ∧ (largeSpan, ord, m) ∈ f.pool.sent ∧ f.inflight = [] by
    obtain ⟨f, ord, m, hr, hconns, hd, hsent, hfly⟩ := key
    obtain ⟨_, _, _, _, inv⟩ := hr.inv
    have stuck : f.Stuck := by
      refine ⟨m, hd, ?_⟩
      obtain ⟨k1, k2⟩ := C10_no_alias _ inv.pool _ hsent
      dsimp only at k1 k2
      rw [k1, k2]
      exact largeSpan_large ord
    refine ⟨f, hr, hconns, fun outcomes' topic' g hl => ⟨List.eq_nil_of_length_eq_zero ?_, fun i l hi hlen code => ?_⟩⟩
    · have := (C70_stuck hr stuck hl).2.2.1
      rw [hfly, List.length_nil] at this
      omega
    · have := C70_unanswered hr stuck hl hi hlen code
      rwa [hconns] at this
  have r0 : Front.Reachable part [.spans [largeSpan]] [] _ := .request (.spans [largeSpan]) .init
  have r1 := r0.step (.http (.push _ (i := 0) (s := largeSpan) (rest := []) rfl (by decide)))
  have r2 := r1.step (.http (.accept _ (i := 0) rfl))
  have r3 := r2.step (.new _)
  obtain ⟨_, _, _, _, inv⟩ := r3.inv
  have hsome := C10_no_panic _ inv.pool {} (List.mem_singleton.mpr rfl) largeSpan (largeSpan.tags.getD ∅).toList
  obtain ⟨⟨hp, enc', m⟩, he⟩ := Option.isSome_iff_exists.mp hsome
  have r4 := r3.step (.send (x := largeSpan) (rest := []) (j := 0) (enc := {}) rfl rfl rfl (.refl _) he)
  have r5 := r4.step (.input rfl rfl)
  refine ⟨_, (largeSpan.tags.getD ∅).toList, m, r5, rfl, rfl, ?_, rfl⟩
  exact List.mem_append_right _ (List.mem_singleton.mpr rfl)

theorem front_progress {log : List (Nat × Span)} {prod fly rest : List Sent} (inv : FrontInv outcomes log prod fly rest f) (hsmall : ∀ x, Accepted outcomes x → Small x) (hw : ¬ f.Idle) :
    ∃ topic' g, f.Later part [] topic' g ∧ g.work < f.work := by
  have one : ∀ {g e}, f.Step part g e → g.work < f.work → ∃ topic' g, f.Later part [] topic' g ∧ g.work < f.work :=
    fun st hlt => ⟨_, _, .step .refl st, hlt⟩
  cases hfl : f.inflight with
  | cons m l' =>
    refine one (.produce (l := []) (m := m) (l' := l') hfl (by simp)) ?_
    simp only [Front.work, hfl, List.nil_append, List.length_cons]
    omega
  | nil =>
    cases hd : f.dispatching with
    | some m =>
      have hb := inv.before
      rw [hd] at hb
      obtain ⟨l1, y, l2, rfl, _, hy, _⟩ := map_eq_append_cons (a := []) hb
      have hmem : y ∈ f.pool.sent := inv.msgs.mem_iff.mp (by simp)
      obtain ⟨k1, k2⟩ := C10_no_alias _ inv.pool _ hmem
      have := hsmall y.1 (http_accepted inv.http (List.mem_map.mpr ⟨y, hmem, rfl⟩)) y.2.1 (inv.ranges y hmem)
      rw [← k1, ← k2, hy] at this
      refine one (.dispatch hd this) ?_
      simp only [Front.work, hd, hfl, List.nil_append, List.length_cons, Option.toList_some, Option.toList_none, List.length_nil]
      omega
    | none =>
      cases ho : f.offered with
      | some m =>
        refine one (.input ho hd) ?_
        simp only [Front.work, hd, ho, List.length_cons, Option.toList_some, Option.toList_none, List.length_nil]
        omega
      | none =>
        cases hc : f.http.channel with
        | cons x r =>
          have hst : f.Step part _ none := .new f
          obtain ⟨_, _, _, _, inv1, _⟩ := inv.step hst
          have hsome := C10_no_panic _ inv1.pool {} (by simp) x (x.tags.getD ∅).toList
          obtain ⟨⟨hp, enc', m⟩, he⟩ := Option.isSome_iff_exists.mp hsome
          refine ⟨_, _, .step (.step .refl hst) (.send (x := x) (rest := r) (j := f.pool.encoders.length) (enc := {}) ho hc (by simp) (.refl _) he), ?_⟩
          simp only [Front.work, hc, ho, List.length_cons, Option.toList_some, Option.toList_none, List.length_nil]
          omega
        | nil =>
          have : ∃ c ∈ f.http.conns, c = .failing ∨ ∃ l, c = .pushing l := by
            refine Classical.byContradiction fun hno => hw ⟨fun c hcm => ⟨fun e => hno ⟨c, hcm, .inl e⟩, fun l e => hno ⟨c, hcm, .inr ⟨l, e⟩⟩⟩, hc, ho, hd, hfl⟩
          obtain ⟨c, hcm, hcase⟩ := this
          obtain ⟨i, hi⟩ := List.getElem?_of_mem hcm
          rcases hcase with rfl | ⟨l, rfl⟩
          · refine one (.http (.reject _ hi)) ?_
            have := sum_map_set Conn.left (q' := .answered 400) hi
            simp only [Front.work]
            simp only [Conn.left] at this
            omega
          · cases l with
            | nil =>
              refine one (.http (.accept _ hi)) ?_
              have := sum_map_set Conn.left (q' := .answered 202) hi
              simp only [Front.work]
              simp only [Conn.left, List.length_nil] at this
              omega
            | cons x l =>
              refine one (.http (.push _ hi (by rw [hc]; decide))) ?_
              have := sum_map_set Conn.left (q' := .pushing l) hi
              simp only [Front.work, List.length_append, List.length_singleton]
              simp only [Conn.left, List.length_cons] at this
              omega

/-- C70: as long as Kafka takes all spans of accepted requests, work goes on: there is a next step until everything is in the topic and everyone has an answer, … -/
theorem C70_progress_partial (h : Front.Reachable part outcomes topic f) (hsmall : ∀ x, Accepted outcomes x → Small x) (hw : ¬ f.Idle) :
    ∃ topic' g, f.Later part [] topic' g ∧ g.work < f.work := by
  obtain ⟨log, prod, fly, rest, inv⟩ := h.inv
  exact front_progress inv hsmall hw

/-- … no step adds work, and every step that is not a new encoder makes it less; … -/
theorem C70_terminates_partial {g : Front} {e} (h : f.Step part g e) : g.work < f.work ∨ g.work = f.work ∧ g.pool.encoders.length = f.pool.encoders.length + 1 := by
  cases h with
  | http hs =>
    left
    cases hs with
    | @push i x rest hi hc =>
      have := sum_map_set Conn.left (q' := .pushing rest) hi
      simp only [Front.work, List.length_append, List.length_singleton]
      simp only [Conn.left, List.length_cons] at this
      omega
    | accept hi =>
      have := sum_map_set Conn.left (q' := .answered 202) hi
      simp only [Front.work]
      simp only [Conn.left, List.length_nil] at this
      omega
    | reject hi =>
      have := sum_map_set Conn.left (q' := .answered 400) hi
      simp only [Front.work]
      simp only [Conn.left] at this
      omega
  | new => exact .inr ⟨rfl, by simp⟩
  | send ho hc hj hr he =>
    left
    simp only [Front.work, hc, ho, List.length_cons, Option.toList_some, Option.toList_none, List.length_nil]
    omega
  | input ho hd =>
    left
    simp only [Front.work, hd, ho, List.length_cons, Option.toList_some, Option.toList_none, List.length_nil]
    omega
  | dispatch hd hsz =>
    left
    simp only [Front.work, hd, List.length_append, List.length_cons, Option.toList_some, Option.toList_none, List.length_nil]
    omega
  | produce hi hf =>
    left
    simp only [Front.work, hi, List.length_append, List.length_cons]
    omega

/-- … and so everything gets to the topic, and every request gets its answer. -/
theorem C70_partial (h : Front.Reachable part outcomes topic f) (hsmall : ∀ x, Accepted outcomes x → Small x) :
    ∃ topic' g, f.Later part [] topic' g ∧ g.Idle ∧
      ∀ (i : Nat) o, outcomes[i]? = some o → (∀ l, o = .spans l → g.http.conns[i]? = some (.answered 202)) ∧ (o = .err → g.http.conns[i]? = some (.answered 400)) := by
  suffices key : ∃ topic' g, f.Later part [] topic' g ∧ g.Idle by
    obtain ⟨topic', g, hl, hidle⟩ := key
    refine ⟨topic', g, hl, hidle, ?_⟩
    obtain ⟨_, _, _, _, inv⟩ := (h.later hl).inv
    rw [List.append_nil] at inv
    obtain ⟨h1, h2, _, _⟩ := C33_all_or_nothing inv.http
    intro i o ho
    have hlt : i < g.http.conns.length := by rw [h1]; exact (List.getElem?_eq_some_iff.mp ho).1
    have hc := List.getElem?_eq_getElem hlt
    have hall := h2 i o _ ho hc
    have hid := hidle.1 _ (List.getElem_mem hlt)
    generalize g.http.conns[i] = c at hall hc hid
    generalize pushedBy i _ = pushed at hall
    rw [hc]
    cases hall with
    | pushing => exact absurd rfl (hid.2 _)
    | accepted => exact ⟨fun _ _ => rfl, fun h => by cases h⟩
    | failing => exact absurd rfl hid.1
    | rejected => exact ⟨fun _ h => (by cases h), fun _ => rfl⟩
    | panicked => exact ⟨fun _ h => (by cases h), fun h => by cases h⟩
    | waiting => exact ⟨fun _ h => (by cases h), fun h => by cases h⟩
  generalize hn : f.work = n
  induction n using Nat.strongRecOn generalizing f topic with
  | _ n ih =>
    by_cases hw : f.Idle
    · exact ⟨[], f, .refl, hw⟩
    · obtain ⟨topic', g, hl, hlt⟩ := C70_progress_partial h hsmall hw
      have hr := h.later hl
      rw [List.append_nil] at hr
      obtain ⟨topic'', g', hl', hid⟩ := ih g.work (by omega) hr rfl
      exact ⟨_, g', hl.trans hl', hid⟩

end Verif
