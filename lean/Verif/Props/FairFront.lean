import Verif.Proofs.FairFront

/-!
# Everything gets to Kafka eventually: C104
-/

namespace Verif

open Spec

variable {part : List UInt8 → Nat} {r : FrontExecution part}

theorem FrontExecution.reach (r : FrontExecution part) (n : Nat) : Front.Lossy part (r.outcomes n) (r.topic n) (r.state n) := by
  induction n with
  | zero => exact r.start
  | succ n ih =>
    have h := r.next n
    generalize r.state (n + 1) = f' at h
    generalize r.outcomes (n + 1) = o' at h
    generalize r.topic (n + 1) = t' at h
    cases h with
    | step h => exact ih.step h
    | request o => exact ih.request o
    | stay => exact ih

theorem FrontExecution.Whole.reach (h0 : r.Whole) (n : Nat) : Front.Reachable part (r.outcomes n) (r.topic n) (r.state n) := by
  induction n with
  | zero => exact h0
  | succ n ih =>
    have h := r.next n
    generalize r.state (n + 1) = f' at h
    generalize r.outcomes (n + 1) = o' at h
    generalize r.topic (n + 1) = t' at h
    cases h with
    | step h => exact ih.step h
    | request o => exact ih.request o
    | stay => exact ih

theorem FrontExecution.sent (r : FrontExecution part) {n m : Nat} (hm : n ≤ m) : (r.state n).pool.sent <+: (r.state m).pool.sent := by
  induction hm with
  | refl => exact List.prefix_rfl
  | step hm ih => exact ih.trans (r.next _).sent

theorem FrontExecution.flow (r : FrontExecution part) {n m : Nat} (hm : n ≤ m) :
    (r.state n).pool.sent.map (·.1) ++ (r.state n).http.channel <+: (r.state m).pool.sent.map (·.1) ++ (r.state m).http.channel := by
  induction hm with
  | refl => exact List.prefix_rfl
  | step hm ih => exact ih.trans (r.next _).flow

theorem FrontExecution.prefix (r : FrontExecution part) {n m : Nat} (hm : n ≤ m) : r.outcomes n <+: r.outcomes m ∧ r.topic n <+: r.topic m := by
  induction hm with
  | refl => exact ⟨List.prefix_rfl, List.prefix_rfl⟩
  | step hm ih => exact ⟨ih.1.trans (r.next _).outcomes, ih.2.trans (r.next _).topic⟩

theorem FrontExecution.encoders (r : FrontExecution part) {n m : Nat} (hm : n ≤ m) : (r.state n).pool.encoders.length ≤ (r.state m).pool.encoders.length := by
  induction hm with
  | refl => exact Nat.le_refl _
  | step hm ih => exact Nat.le_trans ih (r.next _).encoders

theorem FrontExecution.dispatched (r : FrontExecution part) {n m : Nat} (hm : n ≤ m) : (r.state n).dispatched ≤ (r.state m).dispatched := by
  induction hm with
  | refl => exact Int.le_refl _
  | step hm ih => exact Int.le_trans ih (r.next _).dispatched

theorem front_dispatch {f f' : Front} (h : f.Does part .dispatch f') : f'.dispatched = f.dispatched + 1 := by
  cases h with
  | dispatch hd hs => simp only [Front.dispatched, hd, Option.toList_none, Option.toList_some, List.length_singleton, List.length_nil]; omega

theorem front_send {f f' : Front} (h : f.Does part .send f') : f'.pool.sent.length = f.pool.sent.length + 1 ∨ 0 < f'.pool.encoders.length := by
  cases h with
  | new _ _ _ => right; simp
  | send _ _ _ _ _ => left; simp

/-- The dispatcher passes on what it has. -/
theorem dispatches (h : r.Fair) (hs : r.AllSmall) {n : Nat} {m : Message} (hd : (r.state n).dispatching = some m) : ∃ n', n ≤ n' ∧ (r.state n).dispatched < (r.state n').dispatched := by
  refine Classical.byContradiction fun hn => ?_
  have hconst : ∀ n', n ≤ n' → (r.state n').dispatched = (r.state n).dispatched := fun n' hn' => by
    have h1 := r.dispatched hn'
    have h2 : ¬ (r.state n).dispatched < (r.state n').dispatched := fun e => hn ⟨n', hn', e⟩
    omega
  have hkeep : ∀ n', n ≤ n' → (r.state n').dispatching = some m := fun n' hn' => by
    induction hn' with
    | refl => exact hd
    | @step n1 hn1 ih => exact (r.next n1).keeps ((hconst _ (Nat.le_succ_of_le hn1)).trans (hconst n1 hn1).symm) ih
  obtain ⟨n', hn', hw⟩ := h.dispatch n
  rcases hw with hw | hw
  · refine hw ⟨_, .dispatch (hkeep n' hn') ?_⟩
    obtain ⟨_, _, _, rest, inv⟩ := (r.reach n').inv
    have hb := inv.before
    rw [hkeep n' hn'] at hb
    obtain ⟨l1, y, l2, rfl, _, hy, _⟩ := map_eq_append_cons (a := []) hb
    have hmem : y ∈ (r.state n').pool.sent := inv.msgs.mem_iff.mp (by simp)
    obtain ⟨k1, k2⟩ := C10_no_alias _ inv.pool _ hmem
    have := hs n' y.1 (http_accepted inv.http (List.mem_map.mpr ⟨y, hmem, rfl⟩)) y.2.1 (inv.ranges y hmem)
    rwa [← k1, ← k2, hy] at this
  · have := front_dispatch hw
    rw [hconst n' hn', hconst (n' + 1) (by omega)] at this
    omega

/-- Everything sent is dispatched. -/
theorem all_dispatched (h : r.Fair) (hs : r.AllSmall) (n : Nat) : ∃ m, n ≤ m ∧ ((r.state n).pool.sent.length : Int) ≤ (r.state m).dispatched := by
  refine reaches (f := fun n => (r.state n).dispatched) (fun n => (r.next n).dispatched) fun m hm hlt => ?_
  have hlen := (r.sent hm).length_le
  cases hd : (r.state m).dispatching with
  | some x => exact dispatches h hs hd
  | none =>
    cases ho : (r.state m).offered with
    | none => simp only [Front.dispatched, hd, ho, Option.toList_none, List.length_nil] at hlt; omega
    | some x =>
      -- it is taken some time
      have : ∃ m', m ≤ m' ∧ (r.state m').dispatching = some x := by
        refine Classical.byContradiction fun hn => ?_
        have hkeep : ∀ m', m ≤ m' → (r.state m').dispatching = none ∧ (r.state m').offered = some x := fun m' hm' => by
          induction hm' with
          | refl => exact ⟨hd, ho⟩
          | @step m1 hm1 ih =>
            rcases (r.next m1).offers ih.1 ih.2 with e | e
            · exact absurd ⟨m1 + 1, Nat.le_succ_of_le hm1, e⟩ hn
            · exact e
        obtain ⟨m', hm', hw⟩ := h.input m
        obtain ⟨k1, k2⟩ := hkeep m' hm'
        rcases hw with hw | hw
        · exact hw ⟨_, .input k2 k1⟩
        · have := (hkeep (m' + 1) (by omega)).1
          unfold FrontExecution.Takes at hw
          generalize r.state (m' + 1) = f' at hw this
          cases hw
          cases this
      obtain ⟨m', hm', e⟩ := this
      obtain ⟨m'', hm'', e'⟩ := dispatches h hs e
      have := r.dispatched hm'
      exact ⟨m'', by omega, by omega⟩

/-- The sender takes what waits in the channel. -/
theorem sends (h : r.Fair) (hs : r.AllSmall) {n : Nat} (hc : (r.state n).http.channel ≠ []) : ∃ m, n ≤ m ∧ (r.state n).pool.sent.length < (r.state m).pool.sent.length := by
  refine Classical.byContradiction fun hn => ?_
  have hlen : ∀ m, n ≤ m → (r.state m).pool.sent.length = (r.state n).pool.sent.length := fun m hm => by
    have h1 := (r.sent hm).length_le
    have h2 : ¬ (r.state n).pool.sent.length < (r.state m).pool.sent.length := fun e => hn ⟨m, hm, e⟩
    omega
  have hchan : ∀ m, n ≤ m → (r.state m).http.channel ≠ [] := fun m hm e => by
    have h1 := (r.flow hm).length_le
    rw [e, List.append_nil, List.length_map, hlen m hm, List.length_append, List.length_map] at h1
    exact hc (List.eq_nil_of_length_eq_zero (by omega))
  obtain ⟨m, hm, hd⟩ := all_dispatched h hs n
  have hfree : ∀ m', m ≤ m' → (r.state m').offered = none := fun m' hm' => by
    have h1 := r.dispatched hm'
    have h2 := hlen m' (by omega)
    cases ho : (r.state m').offered with
    | none => rfl
    | some x =>
      have e : (r.state m').dispatched = ((r.state m').pool.sent.length : Int) - 1 - (r.state m').dispatching.toList.length := by
        simp only [Front.dispatched, ho, Option.toList_some, List.length_singleton]; rfl
      omega
  -- it can always send
  have hcan : ∀ m', m ≤ m' → (r.state m').Enabled part .send := fun m' hm' => by
    cases hx : (r.state m').http.channel with
    | nil => exact absurd hx (hchan m' (by omega))
    | cons x rest =>
      cases he : (r.state m').pool.encoders with
      | nil => exact ⟨_, .new (hfree m' hm') (by rw [hx]; simp) he⟩
      | cons enc l =>
        obtain ⟨_, _, _, _, inv⟩ := (r.reach m').inv
        obtain ⟨⟨hp, enc', msg⟩, he'⟩ := Option.isSome_iff_exists.mp (C10_no_panic _ inv.pool enc (by rw [he]; exact List.mem_cons_self) x (x.tags.getD ∅).toList)
        exact ⟨_, .send (j := 0) (hfree m' hm') hx (by rw [he]; rfl) (isRange_toList _) he'⟩
  have hdo : ∀ m', m ≤ m' → ∃ m1, m' ≤ m1 ∧ 0 < (r.state (m1 + 1)).pool.encoders.length ∧ r.Takes .send m1 := fun m' hm' => by
    obtain ⟨m1, hm1, hw⟩ := h.send m'
    rcases hw with hw | hw
    · exact absurd (hcan m1 (by omega)) hw
    · rcases front_send hw with e | e
      · rw [hlen m1 (by omega), hlen (m1 + 1) (by omega)] at e; omega
      · exact ⟨m1, hm1, e, hw⟩
  obtain ⟨m1, hm1, e1, _⟩ := hdo m (Nat.le_refl _)
  obtain ⟨m2, hm2, _, hw⟩ := hdo (m1 + 1) (by omega)
  have e2 := r.encoders hm2
  have e3 := hlen m2 (by omega)
  have e4 := hlen (m2 + 1) (by omega)
  unfold FrontExecution.Takes at hw
  generalize r.state (m2 + 1) = f' at hw e4
  cases hw with
  | new _ _ e => rw [e] at e2; simp only [List.length_nil] at e2; omega
  | send _ _ _ _ _ => simp only [List.length_append, List.length_singleton] at e4; omega

/-- All that waits in the channel is sent, in order. -/
theorem C104_sent (h : r.Fair) (hs : r.AllSmall) (n : Nat) : ∃ m, n ≤ m ∧ ∀ m', m ≤ m' → (r.state n).pool.sent.map (·.1) ++ (r.state n).http.channel <+: (r.state m').pool.sent.map (·.1) := by
  obtain ⟨m, hm, hle⟩ := reaches (f := fun n => ((r.state n).pool.sent.length : Int))
    (b := (((r.state n).pool.sent.map (·.1) ++ (r.state n).http.channel).length : Nat)) (n := n)
    (fun n => by have := (r.next n).sent.length_le; exact Int.ofNat_le.mpr this) (fun m hm hlt => by
      have h1 := (r.flow hm).length_le
      rw [List.length_append (as := (r.state m).pool.sent.map (·.1)), List.length_map] at h1
      obtain ⟨m', hm', h'⟩ := sends h hs (n := m) (by intro e; rw [e] at h1; simp only [List.length_nil] at h1; omega)
      exact ⟨m', hm', by omega⟩)
  refine ⟨m, hm, fun m' hm' => ?_⟩
  have h1 := r.flow (Nat.le_trans hm hm')
  have h2 := (r.sent hm').length_le
  exact List.prefix_of_prefix_length_le h1 (List.prefix_append _ _) (by rw [List.length_map]; omega)

/-- A request that is not yet answered goes on. -/
theorem front_conn_moves (h : r.Fair) (hs : r.AllSmall) {n i : Nat} {c : Conn} (hc : (r.state n).http.conns[i]? = some c) (hw : 0 < connWork c) :
    ∃ m d, n ≤ m ∧ (r.state m).http.conns[i]? = some d ∧ connWork d < connWork c := by
  refine Classical.byContradiction fun hn => ?_
  have hkeep : ∀ m, n ≤ m → (r.state m).http.conns[i]? = some c := fun m hm => by
    induction hm with
    | refl => exact hc
    | @step m1 hm ih =>
      rcases (r.next m1).conn ih with ht | e
      · obtain ⟨d, hd, hlt⟩ := front_handler ht ih
        exact absurd ⟨m1 + 1, d, Nat.le_succ_of_le hm, hd, hlt⟩ hn
      · exact e
  -- the channel has room again and again
  have room : ∀ j, ∃ m, j ≤ m ∧ (r.state m).http.channel.length < 256 := fun j => by
    refine Classical.byContradiction fun hf => ?_
    have hfull : ∀ m, j ≤ m → ¬ (r.state m).http.channel.length < 256 := fun m hm e => hf ⟨m, hm, e⟩
    obtain ⟨m, hm, hall⟩ := C104_sent h hs j
    have hconst := stays (f := fun m => (r.state m).pool.sent.map (·.1) ++ (r.state m).http.channel) (fun m hm => (r.next m).full (hfull m hm)) hm
    have h1 := (hall m (Nat.le_refl _)).length_le
    rw [← hconst, List.length_append] at h1
    exact hfull m hm (by omega)
  obtain ⟨m, hm, ht⟩ := h.handler i (fun j => by
    obtain ⟨m, hm, hr⟩ := room (max n j)
    have hc' := hkeep m (by omega)
    refine ⟨m, by omega, ?_⟩
    match c, hw with
    | .pushing [], _ => exact ⟨_, .accept hc'⟩
    | .pushing (x :: rest), _ => exact ⟨_, .push hc' hr⟩
    | .failing, _ => exact ⟨_, .reject hc'⟩) n
  obtain ⟨d, hd, hlt⟩ := front_handler ht (hkeep m hm)
  exact hn ⟨m + 1, d, by omega, hd, hlt⟩

theorem front_conn_done (h : r.Fair) (hs : r.AllSmall) {n i : Nat} {c : Conn} (hc : (r.state n).http.conns[i]? = some c) :
    ∃ m d, n ≤ m ∧ (r.state m).http.conns[i]? = some d ∧ connWork d = 0 := by
  have key : ∀ w n c, (r.state n).http.conns[i]? = some c → connWork c ≤ w → ∃ m d, n ≤ m ∧ (r.state m).http.conns[i]? = some d ∧ connWork d = 0 := by
    intro w
    induction w with
    | zero => intro n c hc hw; exact ⟨n, c, Nat.le_refl _, hc, by omega⟩
    | succ w ih =>
      intro n c hc hw
      by_cases h0 : 0 < connWork c
      · obtain ⟨m, d, hm, hd, hlt⟩ := front_conn_moves h hs hc h0
        obtain ⟨m', d', hm', hd', h0'⟩ := ih m d hd (by omega)
        exact ⟨m', d', by omega, hd', h0'⟩
      · exact ⟨n, c, Nat.le_refl _, hc, by omega⟩
  exact key _ n c hc (Nat.le_refl _)

theorem FrontExecution.outcome_later (r : FrontExecution part) {n m i : Nat} (hm : n ≤ m) {p : Parsed} (h : (r.outcomes n)[i]? = some p) : (r.outcomes m)[i]? = some p := by
  obtain ⟨l, hl⟩ := (r.prefix hm).1
  rw [← hl, List.getElem?_append_left (List.getElem?_eq_some_iff.mp h).1]; exact h

theorem FrontExecution.answered_stays (r : FrontExecution part) {n m i : Nat} (hm : n ≤ m) {code : Nat} (h : (r.state n).http.conns[i]? = some (.answered code)) :
    (r.state m).http.conns[i]? = some (.answered code) := by
  induction hm with
  | refl => exact h
  | step hm ih =>
    rcases (r.next _).conn ih with ht | e
    · obtain ⟨d, hd, hlt⟩ := front_handler ht ih
      simp [connWork] at hlt
    · exact e

/-- C104: in every fair execution with small spans, every request is answered: with 202 if it was parsed, with 400 if not. -/
theorem C104_answered (h : r.Fair) (hs : r.AllSmall) {n i : Nat} {p : Parsed} (hp : (r.outcomes n)[i]? = some p) :
    (∀ l, p = .spans l → ∃ m, n ≤ m ∧ ∀ m', m ≤ m' → (r.state m').http.conns[i]? = some (.answered 202)) ∧
    (p = .err → ∃ m, n ≤ m ∧ ∀ m', m ≤ m' → (r.state m').http.conns[i]? = some (.answered 400)) := by
  have hi : i < (r.state n).http.conns.length := by
    obtain ⟨_, _, _, _, inv⟩ := (r.reach n).inv
    rw [(C33_all_or_nothing inv.http).1]
    exact (List.getElem?_eq_some_iff.mp hp).1
  obtain ⟨m, d, hm, hd, h0⟩ := front_conn_done h hs (List.getElem?_eq_getElem hi)
  obtain ⟨log, _, _, _, inv⟩ := (r.reach m).inv
  have hall := (C33_all_or_nothing inv.http).2.1 i p d (r.outcome_later hm hp) hd
  generalize pushedBy i log = pushed at hall
  refine ⟨fun l hl => ⟨m, hm, fun m' hm' => r.answered_stays hm' ?_⟩, fun hl => ⟨m, hm, fun m' hm' => r.answered_stays hm' ?_⟩⟩
  · subst hl
    cases hall with
    | pushing => simp [connWork] at h0
    | accepted => exact hd
  · subst hl
    cases hall with
    | failing => simp [connWork] at h0
    | rejected => exact hd

/-! ## Into the topic -/

/-- What the goroutine of a partition does, is seen in the topic. -/
theorem front_produce {o o' : List Parsed} {t t' : List (List UInt8 × List UInt8)} {f f' : Front} (h : Front.Next part o t f o' t' f') {p : Nat} (hd : f.Does part (.produce p) f') :
    ∃ k v, t' = t ++ [(k, v)] ∧ part k = p := by
  have hlen : f'.inflight.length + 1 = f.inflight.length := by
    cases hd with
    | produce hi _ => rw [hi]; simp only [List.length_append, List.length_cons]; omega
  cases h with
  | step h =>
    cases h with
    | dispatch hd hs => simp only [List.length_append, List.length_singleton] at hlen; omega
    | @produce m l l' hi hfirst =>
      refine ⟨_, _, rfl, ?_⟩
      generalize hg : ({ f with inflight := l ++ l' } : Front) = g at hd
      cases hd with
      | @produce _ m2 l2 l2' hi2 _ =>
        have e : l ++ l' = l2 ++ l2' := congrArg Front.inflight hg
        have hp : (m :: (l ++ l')).Perm (m2 :: (l2 ++ l2')) := by
          refine (List.perm_middle.symm.trans ?_).trans List.perm_middle
          rw [← hi, hi2]
        rw [e] at hp
        have := (List.perm_append_right_iff (l := l2 ++ l2')).mp (show ([m] ++ (l2 ++ l2')).Perm ([m2] ++ (l2 ++ l2')) from hp)
        rw [List.singleton_perm_singleton] at this
        rw [this]
    | _ => dsimp only at hlen; omega
  | request o => dsimp only at hlen; omega
  | stay => omega

/-- The messages in a partition. -/
def inPart (part : List UInt8 → Nat) (p : Nat) (topic : List (List UInt8 × List UInt8)) : List (List UInt8 × List UInt8) := topic.filter fun e => decide (part e.1 = p)

theorem FrontOrder.inPart {topic : List (List UInt8 × List UInt8)} {prod fly rest live : List Sent} (ord : FrontOrder part topic prod fly rest live) (p : Nat) :
    inPart part p topic = (prod.filter (Sent.inPart part p)).map fun x => (littleEndian x.1.trace.toUInt64, binaryEncode x.1 x.2.1) := by
  rw [ord.topic, Verif.inPart, List.filter_map]
  rfl

/-- What is on its way into a partition is written. -/
theorem produces (h : r.Fair) {n p : Nat} {m : Message} (hm : m ∈ (r.state n).inflight) (hp : part ((r.state n).pool.heap.deref m.key) = p) :
    ∃ n', n ≤ n' ∧ (inPart part p (r.topic n)).length < (inPart part p (r.topic n')).length := by
  refine Classical.byContradiction fun hn => ?_
  have grow : ∀ n1 k v, n ≤ n1 → r.topic (n1 + 1) = r.topic n1 ++ [(k, v)] → part k = p → False := fun n1 k v hn1 e hk => by
    refine hn ⟨n1 + 1, by omega, ?_⟩
    obtain ⟨l, hl⟩ := (r.prefix hn1).2
    rw [e, ← hl]
    unfold inPart
    simp only [List.filter_append, List.length_append, List.filter_cons, List.filter_nil, hk, decide_true, if_true, List.length_singleton]
    omega
  -- the message is in no other place, and the same
  have hkeep : ∀ n', n ≤ n' → m ∈ (r.state n').inflight ∧ part ((r.state n').pool.heap.deref m.key) = p := fun n' hn' => by
    induction hn' with
    | refl => exact ⟨hm, hp⟩
    | @step n1 hn1 ih =>
      rcases (r.next n1).inflight ih.1 with e | ⟨v, e⟩
      · refine ⟨e, ?_⟩
        obtain ⟨_, _, fly, _, inv⟩ := (r.reach n1).inv
        have hmem := ih.1
        rw [← inv.inflight] at hmem
        obtain ⟨y, hy, rfl⟩ := List.mem_map.mp hmem
        have hy1 : y ∈ (r.state n1).pool.sent := inv.msgs.mem_iff.mp (by simp [hy])
        have hy2 := (r.sent (Nat.le_succ n1)).subset hy1
        obtain ⟨_, _, _, _, inv'⟩ := (r.reach (n1 + 1)).inv
        rw [(C10_no_alias _ inv'.pool _ hy2).1, ← (C10_no_alias _ inv.pool _ hy1).1]
        exact ih.2
      · exact (grow n1 _ v hn1 e ih.2).elim
  obtain ⟨n', hn', hw⟩ := h.produce p n
  obtain ⟨h1, h2⟩ := hkeep n' hn'
  rcases hw with hw | hw
  · refine hw ?_
    -- the first message of the partition
    have first : ∀ l : List Message, m ∈ l → ∃ l1 x l2, l = l1 ++ x :: l2 ∧ part ((r.state n').pool.heap.deref x.key) = p ∧
        ∀ y ∈ l1, part ((r.state n').pool.heap.deref y.key) ≠ p := by
      intro l
      induction l with
      | nil => intro h; cases h
      | cons a l ih =>
        intro hmem
        by_cases ha : part ((r.state n').pool.heap.deref a.key) = p
        · exact ⟨[], a, l, rfl, ha, by simp⟩
        · rcases List.mem_cons.mp hmem with rfl | hmem
          · exact absurd h2 ha
          · obtain ⟨l1, x, l2, e, hx, hl1⟩ := ih hmem
            exact ⟨a :: l1, x, l2, by rw [e]; rfl, hx, by simpa using ⟨ha, hl1⟩⟩
    obtain ⟨l1, x, l2, e, hx, hl1⟩ := first _ h1
    have := Front.Does.produce (part := part) e (by rw [hx]; exact hl1)
    rw [hx] at this
    exact ⟨_, this⟩
  · obtain ⟨k, v, e, hk⟩ := front_produce (r.next n') hw
    exact grow n' k v hn' e hk

theorem inPart_append (p : Nat) (t t' : List (List UInt8 × List UInt8)) : inPart part p (t ++ t') = inPart part p t ++ inPart part p t' := List.filter_append _ _

/-- Everything that is not lost gets into the topic. `old`: what was produced or lost at some time; `since`: what gets into the topic from then on; `live`: the messages for that. -/
theorem produced_since (h : r.Fair) (hs : r.AllSmall) {old : List Sent} {t0 : List (List UInt8 × List UInt8)} {since : Nat → List (List UInt8 × List UInt8)} {live : Nat → List Sent}
    (hord : ∀ n, ∃ log prod fly rest, FrontInv (r.outcomes n) log (old ++ prod) fly rest (r.state n) ∧ FrontOrder part (since n) prod fly rest (live n)) (htopic : ∀ n, r.topic n = t0 ++ since n)
    (hlive : ∀ n m, n ≤ m → ∃ new, live m = live n ++ new ∧ (r.state m).pool.sent = (r.state n).pool.sent ++ new) (n p : Nat) : ∃ m, n ≤ m ∧ ∀ m', m ≤ m' →
    (((live n).filter (Sent.inPart part p)).map fun x => (littleEndian x.1.trace.toUInt64, binaryEncode x.1 x.2.1)) <+: inPart part p (since m') := by
  have hsince : ∀ n m, n ≤ m → inPart part p (since n) <+: inPart part p (since m) := fun n m hm => by
    have := (r.prefix hm).2
    rw [htopic, htopic, List.prefix_append_right_inj] at this
    exact this.filter _
  obtain ⟨m0, hm0, hd⟩ := all_dispatched h hs n
  obtain ⟨m, hm, hle⟩ := reaches (f := fun n => ((inPart part p (since n)).length : Int)) (b := (((live n).filter (Sent.inPart part p)).length : Nat)) (n := m0)
    (fun n => Int.ofNat_le.mpr (hsince n (n + 1) (Nat.le_succ n)).length_le) (fun m hm hlt => by
      obtain ⟨_, prod, fly, rest, inv, ord⟩ := hord m
      obtain ⟨l, hl⟩ := ord.last
      obtain ⟨new, hnew1, hnew2⟩ := hlive n m (by omega)
      -- all that was sent by then is past the dispatcher
      have hlen : (live n).length ≤ l.length := by
        have h1 := r.dispatched hm
        have h2 := congrArg List.length inv.before
        have h3 := congrArg List.length hl
        have h4 := congrArg List.length hnew1
        have h5 := congrArg List.length hnew2
        unfold Front.dispatched at h1 hd
        simp only [List.length_map, List.length_append] at h2 h3 h4 h5
        omega
      have hpre : live n <+: l := by
        have : live n <+: live m := by rw [hnew1]; exact List.prefix_append _ _
        rw [hl] at this
        exact List.prefix_of_prefix_length_le this (List.prefix_append _ _) hlen
      have hf : (prod ++ fly).filter (Sent.inPart part p) = l.filter (Sent.inPart part p) := by
        have := ord.order p
        rw [hl, ← List.append_assoc, List.filter_append, List.filter_append (l₁ := l)] at this
        exact List.append_cancel_right this
      have hfl : fly.filter (Sent.inPart part p) ≠ [] := fun e => by
        rw [ord.inPart, List.length_map] at hlt
        rw [List.filter_append, e, List.append_nil] at hf
        rw [hf] at hlt
        have := (hpre.filter (Sent.inPart part p)).length_le
        omega
      obtain ⟨y, hy⟩ := List.exists_mem_of_ne_nil _ hfl
      rw [List.mem_filter] at hy
      have hin : y.2.2 ∈ (r.state m).inflight := by rw [← inv.inflight]; exact List.mem_map_of_mem hy.1
      obtain ⟨m', hm', hlt'⟩ := produces h (p := p) hin (by
        rw [(inv.deref (by simp [hy.1])).1]
        exact of_decide_eq_true hy.2)
      rw [htopic, htopic, inPart_append, inPart_append, List.length_append, List.length_append] at hlt'
      exact ⟨m', hm', by omega⟩)
  refine ⟨m, by omega, fun m' hm' => ?_⟩
  obtain ⟨_, prod, fly, rest, inv, ord⟩ := hord m'
  have hl : ((live n).filter (Sent.inPart part p)).length ≤ (prod.filter (Sent.inPart part p)).length := by
    have h1 := (hsince m m' hm').length_le
    rw [ord.inPart p, List.length_map] at h1
    omega
  rw [ord.inPart p]
  obtain ⟨new, hnew, _⟩ := hlive n m' (by omega)
  have hpre : live n <+: live m' := by rw [hnew]; exact List.prefix_append _ _
  refine List.IsPrefix.map _ (List.prefix_of_prefix_length_le (hpre.filter _) ?_ hl)
  rw [← ord.order p, List.filter_append]
  exact List.prefix_append _ _

/-- Everything sent gets into the topic. -/
theorem C104_produced (h : r.Fair) (hs : r.AllSmall) (h0 : r.Whole) (n p : Nat) : ∃ m, n ≤ m ∧ ∀ m', m ≤ m' →
    (((r.state n).pool.sent.filter (Sent.inPart part p)).map fun x => (littleEndian x.1.trace.toUInt64, binaryEncode x.1 x.2.1)) <+: inPart part p (r.topic m') :=
  produced_since h hs (old := []) (t0 := []) (live := fun n => (r.state n).pool.sent) (fun n => (h0.reach n).ordered) (fun _ => rfl)
    (fun n m hm => by obtain ⟨new, hnew⟩ := r.sent hm; exact ⟨new, hnew.symm, hnew.symm⟩) n p

theorem eventually_all {α : Type} {P : α → Nat → Prop} (n : Nat) (l : List α) (h : ∀ x ∈ l, ∃ m, n ≤ m ∧ ∀ m', m ≤ m' → P x m') : ∃ m, n ≤ m ∧ ∀ m', m ≤ m' → ∀ x ∈ l, P x m' := by
  induction l with
  | nil => exact ⟨n, Nat.le_refl _, fun _ _ _ h => by cases h⟩
  | cons a l ih =>
    obtain ⟨m1, hm1, h1⟩ := h a List.mem_cons_self
    obtain ⟨m2, hm2, h2⟩ := ih fun x hx => h x (List.mem_cons_of_mem _ hx)
    refine ⟨max m1 m2, by omega, fun m' hm' x hx => ?_⟩
    rcases List.mem_cons.mp hx with rfl | hx
    · exact h1 m' (by omega)
    · exact h2 m' (by omega) x hx

theorem filterMap_of_some {α β : Type} {f : α → Option β} {g : α → β} {l : List α} (h : ∀ x ∈ l, f x = some (g x)) : l.filterMap f = l.map g := by
  induction l with
  | nil => rfl
  | cons a l ih => rw [List.filterMap_cons_some (h a List.mem_cons_self), ih fun x hx => h x (List.mem_cons_of_mem _ hx), List.map_cons]

/-- C104: and all spans of accepted requests get into the topic, where the consumer of their partition finds them, unchanged and in their order. -/
theorem C104_written (h : r.Fair) (hs : r.AllSmall) (h0 : r.Whole) {n i : Nat} {l : List Span} (hp : (r.outcomes n)[i]? = some (.spans l)) :
    ∃ m, n ≤ m ∧ ∀ m', m ≤ m' → ∀ p, ((goTo part p l).map Span.withTags).Sublist (inPartition part p (r.topic m')) := by
  obtain ⟨m, hm, ha⟩ := (C104_answered h hs hp).1 l rfl
  obtain ⟨m1, hm1, hc⟩ := C104_sent h hs m
  have hsub : l.Sublist ((r.state m1).pool.sent.map (·.1)) := by
    refine List.Sublist.trans ?_ (hc m1 (Nat.le_refl _)).sublist
    obtain ⟨log, _, _, _, inv⟩ := (r.reach m).inv
    have hall := C33_all_or_nothing inv.http
    rw [← hall.2.2.2]
    have hl := hall.2.1 i _ _ (r.outcome_later hm hp) (ha m (Nat.le_refl _))
    generalize hpu : pushedBy i log = pushed at hl
    cases hl
    rw [← hpu]
    exact (List.filter_sublist).map _
  obtain ⟨m2, hm2, hall⟩ := eventually_all m1 (l.map fun x => part (littleEndian x.trace.toUInt64)) fun p _ => C104_produced h hs h0 m1 p
  refine ⟨m2, by omega, fun m' hm' p => ?_⟩
  by_cases hpl : p ∈ l.map fun x => part (littleEndian x.trace.toUInt64)
  · have hpre := hall m' hm' p hpl
    have e1 : goTo part p ((r.state m1).pool.sent.map (·.1)) = ((r.state m1).pool.sent.filter (Sent.inPart part p)).map (·.1) := by
      unfold goTo; rw [List.filter_map]; rfl
    have h1 : (goTo part p l).Sublist (((r.state m1).pool.sent.filter (Sent.inPart part p)).map (·.1)) := by
      rw [← e1]; exact hsub.filter _
    refine (h1.map Span.withTags).trans ?_
    have h2 := (hpre.filterMap fun e => decodeKafkaMessage e.2).sublist
    refine List.Sublist.trans ?_ h2
    rw [List.filterMap_map, List.map_map]
    have hok : ∀ y ∈ (r.state m1).pool.sent.filter (Sent.inPart part p), decodeKafkaMessage (binaryEncode y.1 y.2.1) = some y.1.withTags := fun y hy => by
      have hy' := (List.mem_filter.mp hy).1
      obtain ⟨_, _, _, _, inv1⟩ := (r.reach m1).inv
      exact SentOk.decode ⟨hs m1 _ (http_accepted inv1.http (List.mem_map.mpr ⟨y, hy', rfl⟩)) _ (inv1.ranges y hy'), inv1.ranges y hy'⟩
    rw [filterMap_of_some (f := (fun e => decodeKafkaMessage e.2) ∘ fun x : Sent => (littleEndian x.1.trace.toUInt64, binaryEncode x.1 x.2.1)) (g := Span.withTags ∘ fun x : Sent => x.1) (fun y hy => by simp only [Function.comp_apply]; exact hok y hy)]
  · have : goTo part p l = [] := List.filter_eq_nil_iff.mpr fun x hx e => hpl (List.mem_map.mpr ⟨x, hx, of_decide_eq_true e⟩)
    rw [this]
    exact List.nil_sublist _

/-! ## Fair executions exist -/

/-- The execution that begins one step before. -/
def FrontExecution.prepend (r : FrontExecution part) {o : List Parsed} {t : List (List UInt8 × List UInt8)} {f : Front} (h : Front.Lossy part o t f)
    (hn : Front.Next part o t f (r.outcomes 0) (r.topic 0) (r.state 0)) : FrontExecution part where
  state := fun
    | 0 => f
    | n + 1 => r.state n
  outcomes := fun
    | 0 => o
    | n + 1 => r.outcomes n
  topic := fun
    | 0 => t
    | n + 1 => r.topic n
  start := h
  next := fun
    | 0 => hn
    | n + 1 => r.next n

section prepend

variable {o : List Parsed} {t : List (List UInt8 × List UInt8)} {f : Front} (h : Front.Lossy part o t f) (hn : Front.Next part o t f (r.outcomes 0) (r.topic 0) (r.state 0))

theorem front_prepend_weak {a : FrontAction} (hw : r.Weak a) : (r.prepend h hn).Weak a := fun n => by
  obtain ⟨m, hm, hh⟩ := hw n
  exact ⟨m + 1, by omega, hh⟩

theorem front_prepend_fair (hf : r.Fair) : (r.prepend h hn).Fair := by
  refine ⟨fun i he n => ?_, front_prepend_weak h hn hf.send, front_prepend_weak h hn hf.input, front_prepend_weak h hn hf.dispatch, fun p => front_prepend_weak h hn (hf.produce p)⟩
  obtain ⟨m, hm, hh⟩ := hf.handler i (fun n => by
    obtain ⟨m, hm, he⟩ := he (n + 1)
    obtain ⟨m, rfl⟩ : ∃ m', m = m' + 1 := ⟨m - 1, by omega⟩
    exact ⟨m, by omega, he⟩) n
  exact ⟨m + 1, by omega, hh⟩

theorem front_prepend_small (hs : r.AllSmall) : (r.prepend h hn).AllSmall := by
  intro n x hx
  cases n with
  | zero =>
    obtain ⟨l, hl, hxl⟩ := hx
    exact hs 0 x ⟨l, hn.outcomes.subset hl, hxl⟩
  | succ n => exact hs n x hx

end prepend

/-- A fair execution of the future can be continued into the past. -/
theorem front_before {o : List Parsed} {t : List (List UInt8 × List UInt8)} {f g : Front} {os : List Parsed} {ts : List (List UInt8 × List UInt8)} (h : Front.Reachable part o t f)
    (hl : f.Later part os ts g) : ∀ r : FrontExecution part, r.Fair → r.AllSmall → r.state 0 = g → r.outcomes 0 = o ++ os → r.topic 0 = t ++ ts →
    ∃ r' : FrontExecution part, r'.Fair ∧ r'.AllSmall ∧ r'.state 0 = f ∧ r'.outcomes 0 = o ∧ r'.topic 0 = t := by
  induction hl with
  | refl => intro r h1 h2 h3 h4 h5; exact ⟨r, h1, h2, h3, by simpa using h4, by simpa using h5⟩
  | @request os ts g q hl ih =>
    intro r h1 h2 h3 h4 h5
    have hn : Front.Next part (o ++ os) (t ++ ts) g (r.outcomes 0) (r.topic 0) (r.state 0) := by
      rw [h3, h4, h5, ← List.append_assoc]; exact .request q
    exact ih (r.prepend (h.later hl).lossy hn) (front_prepend_fair _ _ h1) (front_prepend_small _ _ h2) rfl rfl rfl
  | @step os ts g g' e hl st ih =>
    intro r h1 h2 h3 h4 h5
    have hn : Front.Next part (o ++ os) (t ++ ts) g (r.outcomes 0) (r.topic 0) (r.state 0) := by
      rw [h3, h4, h5, ← List.append_assoc]; exact .step st
    exact ih (r.prepend (h.later hl).lossy hn) (front_prepend_fair _ _ h1) (front_prepend_small _ _ h2) rfl rfl rfl

/-- In a state in which everything is done, nobody can do anything. -/
theorem Front.Idle.disabled {f : Front} (h : f.Idle) (a : FrontAction) : ¬ f.Enabled part a := by
  obtain ⟨h1, h2, h3, h4, h5⟩ := h
  rintro ⟨f', hd⟩
  cases hd with
  | push hi _ => exact (h1 _ (List.mem_of_getElem? hi)).2 _ rfl
  | accept hi => exact (h1 _ (List.mem_of_getElem? hi)).2 _ rfl
  | reject hi => exact (h1 _ (List.mem_of_getElem? hi)).1 rfl
  | new _ hc _ => exact hc h2
  | send _ hc _ _ _ => rw [h2] at hc; cases hc
  | input ho _ => rw [h3] at ho; cases ho
  | dispatch hd _ => rw [h4] at hd; cases hd
  | produce hi _ => rw [h5] at hi; simp at hi

/-- C104: from every reachable state with small spans, there is a fair execution. -/
theorem C104_exists {o : List Parsed} {t : List (List UInt8 × List UInt8)} {f : Front} (h : Front.Reachable part o t f) (hs : ∀ x, Accepted o x → Small x) :
    ∃ r : FrontExecution part, r.Fair ∧ r.AllSmall ∧ r.state 0 = f ∧ r.outcomes 0 = o ∧ r.topic 0 = t := by
  obtain ⟨ts, g, hl, hidle, _⟩ := C70_partial h hs
  have hr := h.later hl
  let r : FrontExecution part := { state := fun _ => g, outcomes := fun _ => o ++ [], topic := fun _ => t ++ ts, start := hr.lossy, next := fun _ => .stay }
  refine front_before h hl r ⟨fun i he => ?_, fun n => ⟨n, Nat.le_refl _, .inl (hidle.disabled _)⟩, fun n => ⟨n, Nat.le_refl _, .inl (hidle.disabled _)⟩,
    fun n => ⟨n, Nat.le_refl _, .inl (hidle.disabled _)⟩, fun p n => ⟨n, Nat.le_refl _, .inl (hidle.disabled _)⟩⟩ (fun n x hx => hs x (by simpa [r] using hx)) rfl rfl rfl
  obtain ⟨m, _, he⟩ := he 0
  exact absurd he (hidle.disabled _)

/-- The bytes of the texts of a span, and 20 for each tag. -/
def textBytes (x : Span) : Nat := x.name.length + x.service.length + ((x.tags.getD ∅).toList.map fun e => e.1.length + e.2.length + 20).sum

theorem writeString_le (s : Str) : (writeString s).length ≤ s.length + 10 := by
  unfold writeString
  have := (C03_long_size (Int64.ofNat s.length)).2
  rw [List.length_append]; omega

theorem flatMap_writeString_le (l : List (Str × Str)) : (l.flatMap fun e => writeString e.1 ++ writeString e.2).length ≤ (l.map fun e => e.1.length + e.2.length + 20).sum := by
  induction l with
  | nil => exact Nat.le_refl _
  | cons e l ih =>
    have h1 := writeString_le e.1
    have h2 := writeString_le e.2
    simp only [List.flatMap_cons, List.length_append, List.map_cons, List.sum_cons]
    omega

/-- C104: Kafka takes every span with up to 786 000 bytes of text. -/
theorem C104_small {x : Span} (h : textBytes x ≤ 786000) : Small x := by
  intro ord ho
  have hsum := (ho.map fun e => e.1.length + e.2.length + 20).sum_nat
  have hmap : (writeMapString ord).length ≤ (ord.map fun e => e.1.length + e.2.length + 20).sum + 20 := by
    unfold writeMapString
    have h1 := (C03_long_size (Int64.ofNat ord.length)).2
    have h2 := (C03_long_size 0).2
    have h3 := flatMap_writeString_le ord
    by_cases h0 : ord.length = 0
    · simp only [h0, if_true, List.length_append, List.length_nil] at *
      omega
    · simp only [h0, if_false, List.length_append]
      omega
  have n1 := writeString_le x.name
  have n2 := writeString_le x.service
  have l1 := (C03_long_size x.id).2
  have l2 := (C03_long_size x.trace).2
  have l3 := (C03_long_size x.parent).2
  have l4 := (C03_long_size x.timestamp).2
  have l5 := (C03_long_size x.duration).2
  have l6 := (C03_long_size x.timings.CS).2
  have l7 := (C03_long_size x.timings.CR).2
  have l8 := (C03_long_size x.timings.SS).2
  have l9 := (C03_long_size x.timings.SR).2
  have k : (littleEndian x.trace.toUInt64).length = 8 := rfl
  unfold messageSize maxMessageBytes binaryEncode
  unfold textBytes at h
  simp only [List.length_append]
  omega

/-- Two spans of one request, for any way to choose partitions. -/
theorem C104_witness (part : List UInt8 → Nat) : ∃ r : FrontExecution part, r.Fair ∧ r.outcomes 0 = [.spans [{ id := 7, trace := 9, name := b!"get" }, { id := 8, trace := 9, parent := 7 }]] ∧
    r.topic 0 = [] ∧ ∃ m, (r.state m).http.conns[0]? = some (.answered 202) ∧
      [Span.withTags { id := 7, trace := 9, name := b!"get" }, Span.withTags { id := 8, trace := 9, parent := 7 }].Sublist (inPartition part (part [9, 0, 0, 0, 0, 0, 0, 0]) (r.topic m)) := by
  have h0 : Front.Reachable part [.spans [{ id := 7, trace := 9, name := b!"get" }, { id := 8, trace := 9, parent := 7 }]] [] _ := .request _ .init
  obtain ⟨r, hf, hs, h1, h2, h3⟩ := C104_exists h0 (by
    rintro x ⟨l, hl, hx⟩
    simp only [List.mem_singleton, Parsed.spans.injEq] at hl
    subst hl
    simp only [List.mem_cons, List.not_mem_nil, or_false] at hx
    rcases hx with rfl | rfl <;> exact C104_small (by decide +kernel))
  have hp : (r.outcomes 0)[0]? = some (.spans [{ id := 7, trace := 9, name := b!"get" }, { id := 8, trace := 9, parent := 7 }]) := by rw [h2]; rfl
  obtain ⟨m1, _, ha⟩ := (C104_answered hf hs hp).1 _ rfl
  obtain ⟨m2, _, hw⟩ := C104_written hf hs (by unfold FrontExecution.Whole; rw [h1, h2, h3]; exact h0) hp
  refine ⟨r, hf, h2, h3, max m1 m2, ha _ (by omega), ?_⟩
  · have := hw (max m1 m2) (by omega) (part [9, 0, 0, 0, 0, 0, 0, 0])
    have e : goTo part (part [9, 0, 0, 0, 0, 0, 0, 0]) [{ id := 7, trace := 9, name := b!"get" }, { id := 8, trace := 9, parent := 7 }] =
        [{ id := 7, trace := 9, name := b!"get" }, { id := 8, trace := 9, parent := 7 }] := by
      unfold goTo
      rw [List.filter_eq_self]
      intro x hx
      have : littleEndian x.trace.toUInt64 = [9, 0, 0, 0, 0, 0, 0, 0] := by
        simp only [List.mem_cons, List.not_mem_nil, or_false] at hx
        rcases hx with rfl | rfl <;> decide +kernel
      rw [this]; exact decide_eq_true rfl
    rw [e] at this
    exact this

end Verif
