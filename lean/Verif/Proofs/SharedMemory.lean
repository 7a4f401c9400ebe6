import Verif.Model.SharedMemory
import Verif.Props.References
import Verif.Props.Forward

/-!
# The forwarder in the memory of the collector does what it does in its own
-/

namespace Verif.Ref

open Std Spec

variable {κ : Type} {conv : κ → Span → Option Span × κ} {caps : List Nat} {k : κ} {n : Nat}

/-- Converting in place does not depend on what is behind the slice. -/
theorem convertLoop_take (L : Nat) : ∀ (fuel idx m : Nat) (k : κ) (a : List Span), m ≤ idx → idx + fuel ≤ L → L ≤ a.length →
    (convertLoop conv fuel idx m k (a.take L)).1 = (convertLoop conv fuel idx m k a).1 ∧
    (convertLoop conv fuel idx m k (a.take L)).2.1 = (convertLoop conv fuel idx m k a).2.1 ∧
    (convertLoop conv fuel idx m k (a.take L)).2.2 = (convertLoop conv fuel idx m k a).2.2.take L ∧
    (convertLoop conv fuel idx m k a).2.2.length = a.length ∧ (convertLoop conv fuel idx m k a).1 ≤ m + fuel := by
  intro fuel
  induction fuel with
  | zero => exact fun idx m k a _ _ _ => ⟨rfl, rfl, rfl, rfl, Nat.le_refl _⟩
  | succ fuel ih =>
    intro idx m k a hm hl ha
    have hg : (a.take L).getD idx {} = a.getD idx {} := by
      rw [List.getD_eq_getElem?_getD, List.getD_eq_getElem?_getD, List.getElem?_take_of_lt (by omega)]
    unfold convertLoop
    rw [hg]
    generalize conv k (a.getD idx {}) = r
    obtain ⟨c, k'⟩ := r
    dsimp only
    cases c with
    | none =>
      obtain ⟨h1, h2, h3, h4, h5⟩ := ih (idx + 1) m k' a (by omega) (by omega) ha
      exact ⟨h1, h2, h3, h4, by dsimp only; omega⟩
    | some s =>
      dsimp only
      split
      · obtain ⟨h1, h2, h3, h4, h5⟩ := ih (idx + 1) m k' a (by omega) (by omega) ha
        exact ⟨h1, h2, h3, h4, by omega⟩
      · obtain ⟨h1, h2, h3, h4, h5⟩ := ih (idx + 1) (m + 1) k' (a.set m s) (by omega) (by omega) (by rw [List.length_set]; exact ha)
        rw [← List.take_set]
        exact ⟨h1, h2, h3, by rw [h4, List.length_set], by omega⟩

/-- Where a slice of the forwarder's own memory is in the memory of the collector. -/
def loc (sent : List (Slice × List Span)) (r : SliceRef) : SliceRef := ⟨((sent[r.addr]?).map (·.1.arr)).getD 0, r.len⟩

/-- The slice is part of something that was sent. -/
def Within (sent : List (Slice × List Span)) (r : SliceRef) : Prop := ∃ x, sent[r.addr]? = some x ∧ r.len ≤ x.1.len

theorem loc_of {sent : List (Slice × List Span)} {r : SliceRef} {x : Slice × List Span} (h : sent[r.addr]? = some x) : loc sent r = ⟨x.1.arr, r.len⟩ := by
  unfold loc; rw [h]; rfl

theorem Within.append {sent : List (Slice × List Span)} {r : SliceRef} (h : Within sent r) (new : List (Slice × List Span)) : Within (sent ++ new) r ∧ loc (sent ++ new) r = loc sent r := by
  obtain ⟨x, hx, hl⟩ := h
  have hx' : (sent ++ new)[r.addr]? = some x := by rw [List.getElem?_append_left (List.getElem?_eq_some_iff.mp hx).1]; exact hx
  exact ⟨⟨x, hx', hl⟩, by rw [loc_of hx, loc_of hx']⟩

/-- All slices that the forwarder or a target has. -/
def Has (f : Forwarder κ) (r : SliceRef) : Prop := r ∈ f.source ∨ (∃ i, f.sending = some (r, i)) ∨ (∃ q ∈ f.queues, r ∈ q) ∨ ∃ q ∈ f.taken, r ∈ q

/-- The forwarder `f` in the memory of the collector is like `f0` in its own. -/
structure Same (p : PWorld) (f f0 : Forwarder κ) : Prop where
  conv : f.conv = f0.conv
  length : f0.heap.length = p.sent.length
  arrays : ∀ (j : Nat) (x : Slice × List Span), p.sent[j]? = some x → ∃ a, p.heap[x.1.arr]? = some a ∧ x.1.len ≤ a.length ∧ f0.heap[j]? = some (a.take x.1.len)
  source : f.source = f0.source.map (loc p.sent)
  sending : f.sending = f0.sending.map fun e => (loc p.sent e.1, e.2)
  queues : f.queues = f0.queues.map (·.map (loc p.sent))
  taken : f.taken = f0.taken.map (·.map (loc p.sent))
  within : ∀ r, Has f0 r → Within p.sent r

theorem Same.read {p : PWorld} {f f0 : Forwarder κ} (h : Same p f f0) {r : SliceRef} (hr : Has f0 r) : SpanHeap.read p.heap (loc p.sent r) = f0.heap.read r := by
  obtain ⟨x, hx, hl⟩ := h.within r hr
  obtain ⟨a, ha, _, h0⟩ := h.arrays _ x hx
  rw [loc_of hx]
  unfold SpanHeap.read
  dsimp only
  rw [List.getD_eq_getElem?_getD, List.getD_eq_getElem?_getD, ha, h0, Option.getD_some, Option.getD_some, List.take_take, Nat.min_eq_left hl]

/-- The collector took a step: other arrays changed, and some traces were sent. -/
theorem Same.sends {p p' : PWorld} {f f0 : Forwarder κ} (h : Same p f f0) {d : List (List Span)} (hs : Sends p p' d) {arrived : List (List Span)} (hr : Forwarder.Reachable conv caps k n arrived f0) :
    ∃ f0', Forwarder.Reachable conv caps k n (arrived ++ d) f0' ∧ Same p' { f with source := f.source ++ (p'.sent.drop p.sent.length).map (·.1.ref) } f0' := by
  obtain ⟨⟨new, hn, rfl, hi⟩, hk⟩ := hs
  rw [hn, List.drop_left]
  -- first, only the memory changes
  have h1 : Same { p' with sent := p.sent } f f0 := by
    refine ⟨h.conv, h.length, fun j x hx => ?_, h.source, h.sending, h.queues, h.taken, h.within⟩
    have := hk x (List.mem_of_getElem? hx)
    obtain ⟨a, ha, hl, h0⟩ := h.arrays j x hx
    exact ⟨a, by show p'.heap[x.1.arr]? = _; rw [this]; exact ha, hl, h0⟩
  have hp : p' = { p' with sent := p.sent ++ new } := by rw [← hn]
  rw [hp]
  clear hp hn hk h
  generalize p.sent = sent at h1
  induction new generalizing sent f f0 arrived with
  | nil =>
    refine ⟨f0, by simpa using hr, ?_⟩
    simpa using h1
  | cons x new ih =>
    obtain ⟨a, ha, hl, hx⟩ := hi x List.mem_cons_self
    have hlen : f0.heap.length = sent.length := h1.length
    have hxl : x.2.length = x.1.len := by rw [← hx, List.length_take]; exact Nat.min_eq_left hl
    have hget : (sent ++ [x])[sent.length]? = some x := by rw [List.getElem?_append_right (Nat.le_refl _), Nat.sub_self]; rfl
    have hmap : ∀ l : List SliceRef, (∀ r ∈ l, Has f0 r) → l.map (loc (sent ++ [x])) = l.map (loc sent) := fun l hl =>
      List.map_congr_left fun r hr => ((h1.within r (hl r hr)).append [x]).2
    have hw : ∀ r, Has f0 r → Within (sent ++ [x]) r := fun r hr => ((h1.within r hr).append [x]).1
    have h2 : Same { p' with sent := sent ++ [x] } { f with source := f.source ++ [x.1.ref] } (f0.arrive x.2) := by
      refine ⟨h1.conv, ?_, fun j y hy => ?_, ?_, ?_, ?_, ?_, fun r hr => ?_⟩
      · show (f0.heap ++ [x.2]).length = (sent ++ [x]).length
        rw [List.length_append, List.length_append, hlen]; rfl
      · change (sent ++ [x])[j]? = some y at hy
        show ∃ a, p'.heap[y.1.arr]? = some a ∧ y.1.len ≤ a.length ∧ (f0.heap ++ [x.2])[j]? = some (a.take y.1.len)
        rcases Nat.lt_or_ge j sent.length with hj | hj
        · rw [List.getElem?_append_left hj] at hy
          rw [List.getElem?_append_left (by omega)]
          exact h1.arrays j y hy
        · have hj' := (List.getElem?_eq_some_iff.mp hy).1
          rw [List.length_append] at hj'
          have : j = sent.length := by have : [x].length = 1 := rfl; omega
          subst this
          rw [hget] at hy
          cases hy
          refine ⟨a, ha, hl, ?_⟩
          rw [List.getElem?_append_right (by omega), hlen, Nat.sub_self, hx]; rfl
      · show f.source ++ [x.1.ref] = (f0.source ++ [SliceRef.mk f0.heap.length x.2.length]).map (loc (sent ++ [x]))
        rw [List.map_append, hmap _ (fun r hr => Or.inl hr), ← h1.source]
        congr 1
        rw [List.map_singleton, hlen]
        have : loc (sent ++ [x]) (SliceRef.mk sent.length x.2.length) = x.1.ref := by
          rw [loc_of (x := x) (r := SliceRef.mk sent.length x.2.length) hget, hxl]; rfl
        rw [this]
      · show f.sending = f0.sending.map fun e => (loc (sent ++ [x]) e.1, e.2)
        rw [h1.sending]
        cases he : f0.sending with
        | none => rfl
        | some e =>
          rw [Option.map_some, Option.map_some]
          show some (loc sent e.1, e.2) = _
          rw [((h1.within e.1 (Or.inr (Or.inl ⟨e.2, he⟩))).append [x]).2]
      · show f.queues = f0.queues.map (·.map (loc (sent ++ [x])))
        rw [h1.queues]
        exact List.map_congr_left fun q hq => (hmap q fun r hr => Or.inr (Or.inr (Or.inl ⟨q, hq, hr⟩))).symm
      · show f.taken = f0.taken.map (·.map (loc (sent ++ [x])))
        rw [h1.taken]
        exact List.map_congr_left fun q hq => (hmap q fun r hr => Or.inr (Or.inr (Or.inr ⟨q, hq, hr⟩))).symm
      · rcases hr with hr | hr
        · change r ∈ f0.source ++ [_] at hr
          rcases List.mem_append.mp hr with hr | hr
          · exact hw r (Or.inl hr)
          · rw [List.mem_singleton.mp hr]
            exact ⟨x, by rw [hlen]; exact hget, by show x.2.length ≤ _; rw [hxl]⟩
        · exact hw r (Or.inr hr)
    obtain ⟨f0', r', s'⟩ := ih (.arrive x.2 hr) (fun y hy => hi y (List.mem_cons_of_mem _ hy)) _ h2
    refine ⟨f0', ?_, ?_⟩
    · rw [List.append_assoc] at r'; exact r'
    · rw [List.append_assoc, List.append_assoc] at s'
      exact s'

theorem getElem?_map_some {α β : Type} {g : α → β} {l : List α} {i : Nat} {b : β} (h : (l.map g)[i]? = some b) : ∃ a, l[i]? = some a ∧ g a = b := by
  rw [List.getElem?_map] at h
  exact Option.map_eq_some_iff.mp h

/-- The forwarder or a target took a step. -/
theorem Same.step {p : PWorld} {f f0 f' : Forwarder κ} (h : Same p f f0) (once : p.sent.Pairwise fun x y => x.1.arr ≠ y.1.arr) (hs : Forwarder.Step conv caps { f with heap := p.heap } f') :
    ∃ f0', Forwarder.Step conv caps f0 f0' ∧ Same { p with heap := f'.heap } f' f0' ∧ p.heap.length ≤ f'.heap.length ∧
      ∀ m, (∀ x ∈ p.sent, m ≠ x.1.arr) → f'.heap[m]? = p.heap[m]? := by
  cases hs with
  | own hs =>
    cases hs with
    | @take trace rest h1 h2 =>
      change f.source = trace :: rest at h1
      change f.sending = none at h2
      rw [h.source] at h1
      obtain ⟨r0, rest0, e1, e2, e3⟩ := List.map_eq_cons_iff.mp h1
      have hs0 : f0.sending = none := by rw [h.sending] at h2; exact Option.map_eq_none_iff.mp h2
      obtain ⟨x, hx, hl⟩ := h.within r0 (Or.inl (by rw [e1]; exact List.mem_cons_self))
      obtain ⟨a, ha, hla, h0⟩ := h.arrays _ x hx
      rw [loc_of hx] at e2
      subst e2
      obtain ⟨c1, c2, c3, c4, c5⟩ := convertLoop_take (conv := conv) x.1.len r0.len 0 0 f.conv a (Nat.le_refl _) (by omega) hla
      refine ⟨_, .own (.take f0 e1 hs0), ?_⟩
      have g1 : p.heap.getD x.1.arr [] = a := by rw [List.getD_eq_getElem?_getD, ha]; rfl
      have g0 : f0.heap.getD r0.addr [] = a.take x.1.len := by rw [List.getD_eq_getElem?_getD, h0]; rfl
      simp only [convertTrace, g1, g0, ← h.conv, c1, c2, c3]
      generalize convertLoop conv r0.len 0 0 f.conv a = res at c4 c5
      obtain ⟨m, k', cells⟩ := res
      dsimp only at c4 c5 ⊢
      have hpl := (List.getElem?_eq_some_iff.mp ha).1
      have h0l := (List.getElem?_eq_some_iff.mp h0).1
      refine ⟨⟨rfl, ?_, fun j y hy => ?_, e3.symm, ?_, h.queues, h.taken, fun r hr => ?_⟩, ?_, fun m' hm' => ?_⟩
      · show (f0.heap.set _ _).length = _
        rw [List.length_set]; exact h.length
      · show ∃ b, (p.heap.set x.1.arr cells)[y.1.arr]? = some b ∧ _ ∧ (f0.heap.set r0.addr (cells.take x.1.len))[j]? = _
        by_cases hj : j = r0.addr
        · subst hj
          change p.sent[r0.addr]? = some y at hy
          rw [hx] at hy
          cases hy
          refine ⟨cells, List.getElem?_set_self hpl, by omega, List.getElem?_set_self h0l⟩
        · obtain ⟨b, hb, hlb, hb0⟩ := h.arrays j y hy
          have hne : x.1.arr ≠ y.1.arr := by
            change p.sent[j]? = some y at hy
            obtain ⟨hj1, hy'⟩ := List.getElem?_eq_some_iff.mp hy
            obtain ⟨hr1, hx'⟩ := List.getElem?_eq_some_iff.mp hx
            have o := List.pairwise_iff_getElem.mp once
            rcases Nat.lt_or_gt_of_ne hj with hlt | hlt
            · have := o j r0.addr hj1 hr1 hlt
              rw [hy', hx'] at this
              exact this.symm
            · have := o r0.addr j hr1 hj1 hlt
              rw [hy', hx'] at this
              exact this
          exact ⟨b, by rw [List.getElem?_set_ne hne]; exact hb, hlb, by rw [List.getElem?_set_ne (Ne.symm hj)]; exact hb0⟩
      · show some ((SliceRef.mk x.1.arr m), 0) = some (loc p.sent (SliceRef.mk r0.addr m), 0)
        rw [loc_of (x := x) (r := SliceRef.mk r0.addr m) hx]
      · rcases hr with hr | ⟨i, hr⟩ | hr
        · exact h.within r (Or.inl (by rw [e1]; exact List.mem_cons_of_mem _ hr))
        · cases hr
          exact ⟨x, hx, by dsimp only; omega⟩
        · exact h.within r (Or.inr (Or.inr hr))
      · rw [List.length_set]
      · exact List.getElem?_set_ne (Ne.symm (hm' x (List.mem_of_getElem? hx)))
    | @send r i q h1 h2 h3 =>
      change f.sending = some (r, i) at h1
      change f.queues[i]? = some q at h2
      rw [h.sending] at h1
      obtain ⟨⟨r0, i0⟩, e1, e2⟩ := Option.map_eq_some_iff.mp h1
      cases e2
      rw [h.queues] at h2
      obtain ⟨q0, e3, e4⟩ := getElem?_map_some h2
      subst e4
      rw [List.length_map] at h3
      refine ⟨_, .own (.send f0 e1 e3 h3), ⟨h.conv, h.length, h.arrays, h.source, rfl, ?_, h.taken, fun r hr => ?_⟩, Nat.le_refl _, fun _ _ => rfl⟩
      · show f.queues.set _ _ = (f0.queues.set _ _).map _
        rw [List.map_set, List.map_append, h.queues]; rfl
      · rcases hr with hr | ⟨i', hr⟩ | ⟨q', hq, hr⟩ | hr
        · exact h.within r (Or.inl hr)
        · cases hr
          exact h.within r0 (Or.inr (Or.inl ⟨_, e1⟩))
        · rcases List.mem_or_eq_of_mem_set hq with hq | hq
          · exact h.within r (Or.inr (Or.inr (Or.inl ⟨q', hq, hr⟩)))
          · subst hq
            rcases List.mem_append.mp hr with hr | hr
            · exact h.within r (Or.inr (Or.inr (Or.inl ⟨q0, List.mem_of_getElem? e3, hr⟩)))
            · rw [List.mem_singleton.mp hr]
              exact h.within r0 (Or.inr (Or.inl ⟨_, e1⟩))
        · exact h.within r (Or.inr (Or.inr (Or.inr hr)))
    | @finish r h1 =>
      change f.sending = some (r, f.queues.length) at h1
      rw [h.sending, h.queues, List.length_map] at h1
      obtain ⟨⟨r0, i0⟩, e1, e2⟩ := Option.map_eq_some_iff.mp h1
      cases e2
      refine ⟨_, .own (.finish f0 e1), ⟨h.conv, h.length, h.arrays, h.source, rfl, h.queues, h.taken, fun r hr => ?_⟩, Nat.le_refl _, fun _ _ => rfl⟩
      rcases hr with hr | ⟨i', hr⟩ | hr
      · exact h.within r (Or.inl hr)
      · cases hr
      · exact h.within r (Or.inr (Or.inr hr))
  | @receive i r hs =>
    cases hs with
    | @mk q l h1 h2 =>
      change f.queues[i]? = some (r :: q) at h1
      change f.taken[i]? = some l at h2
      rw [h.queues] at h1
      rw [h.taken] at h2
      obtain ⟨q0, e1, e2⟩ := getElem?_map_some h1
      obtain ⟨l0, e3, e4⟩ := getElem?_map_some h2
      obtain ⟨r0, q1, e5, e6, e7⟩ := List.map_eq_cons_iff.mp e2
      subst e5 e4 e6 e7
      have hr0 : Has f0 r0 := Or.inr (Or.inr (Or.inl ⟨_, List.mem_of_getElem? e1, List.mem_cons_self⟩))
      refine ⟨_, .receive (.mk f0 e1 e3), ⟨h.conv, h.length, h.arrays, h.source, h.sending, ?_, ?_, fun r hr => ?_⟩, Nat.le_refl _, fun _ _ => rfl⟩
      · show f.queues.set _ _ = (f0.queues.set _ _).map _
        rw [List.map_set, h.queues]
      · show f.taken.set _ _ = (f0.taken.set _ _).map _
        rw [List.map_set, List.map_append, h.taken]; rfl
      · rcases hr with hr | hr | ⟨q', hq, hr⟩ | ⟨q', hq, hr⟩
        · exact h.within r (Or.inl hr)
        · exact h.within r (Or.inr (Or.inl hr))
        · rcases List.mem_or_eq_of_mem_set hq with hq | hq
          · exact h.within r (Or.inr (Or.inr (Or.inl ⟨q', hq, hr⟩)))
          · subst hq
            exact h.within r (Or.inr (Or.inr (Or.inl ⟨_, List.mem_of_getElem? e1, List.mem_cons_of_mem _ hr⟩)))
        · rcases List.mem_or_eq_of_mem_set hq with hq | hq
          · exact h.within r (Or.inr (Or.inr (Or.inr ⟨q', hq, hr⟩)))
          · subst hq
            rcases List.mem_append.mp hr with hr | hr
            · exact h.within r (Or.inr (Or.inr (Or.inr ⟨l0, List.mem_of_getElem? e3, hr⟩)))
            · rw [List.mem_singleton.mp hr]
              exact h.within r0 hr0

/-- In all executions the collector and the forwarder do what each of them does in its own memory. -/
theorem Shared.Reachable.same {g : Shared κ} {ph : Phase} {w : World} (h : Shared.Reachable conv caps k n g ph w) :
    Beside g.p ph w ∧ ∃ f0, Forwarder.Reachable conv caps k n (g.p.sent.map (·.2)) f0 ∧ Same g.p g.f f0 := by
  induction h with
  | start now hp =>
    refine ⟨.start now hp, _, .init, ⟨rfl, rfl, fun j x hx => (by cases hx), rfl, rfl, ?_, ?_, fun r hr => ?_⟩⟩
    · simp [Forwarder.init]
    · simp [Forwarder.init]
    · rcases hr with hr | ⟨_, hr⟩ | ⟨q, hq, hr⟩ | ⟨q, hq, hr⟩
      · cases hr
      · cases hr
      · rw [List.eq_of_mem_replicate hq] at hr; cases hr
      · rw [List.eq_of_mem_replicate hq] at hr; cases hr
  | @receive g p' w now1 now2 s extra _ h1 h2 he ih =>
    obtain ⟨hb, f0, hr, hs⟩ := ih
    obtain ⟨p1, e, _, sn⟩ := receive_sim (beside_sim hb).2.1 extra now1 now2 s
    rw [he] at e
    cases e
    refine ⟨.receive now1 now2 s extra hb h1 h2 he, ?_⟩
    obtain ⟨f1, r1, s1⟩ := hs.sends sn hr
    obtain ⟨⟨new, n1, n2, _⟩, _⟩ := sn
    rw [List.map_eq_nil_iff.mp n2, List.append_nil] at n1
    rw [n1, List.drop_length, List.map_nil, List.append_nil] at s1
    rw [List.append_nil] at r1
    exact ⟨f1, by rw [n1]; exact r1, s1⟩
  | tick i extra _ hv hc ih => exact ⟨.tick i extra ih.1 hv hc, ih.2⟩
  | @finish g p' w i extra m id rest _ he ih =>
    obtain ⟨hb, f0, hr, hs⟩ := ih
    obtain ⟨hw, hd⟩ := beside_sim hb
    obtain ⟨p1, d, e, _, sn⟩ := hd.next hw
    rw [he] at e
    cases e
    refine ⟨.finish hb he, ?_⟩
    obtain ⟨f1, r1, s1⟩ := hs.sends sn hr
    obtain ⟨⟨new, n1, n2, _⟩, _⟩ := sn
    exact ⟨f1, by rw [n1, List.map_append, n2]; exact r1, s1⟩
  | @done g w i extra m _ ih =>
    obtain ⟨hb, f0, hr, hs⟩ := ih
    obtain ⟨e1, e2⟩ := C166_sent.2.2 hb
    refine ⟨.done hb, f0, by rw [e2]; exact hr, ⟨hs.conv, ?_, ?_, ?_, ?_, ?_, ?_, ?_⟩⟩
    · dsimp only; rw [e2]; exact hs.length
    · dsimp only; rw [e1, e2]; exact hs.arrays
    · dsimp only; rw [e2]; exact hs.source
    · dsimp only; rw [e2]; exact hs.sending
    · dsimp only; rw [e2]; exact hs.queues
    · dsimp only; rw [e2]; exact hs.taken
    · dsimp only; rw [e2]; exact hs.within
  | forward _ hstep ih =>
    obtain ⟨hb, f0, hr, hs⟩ := ih
    obtain ⟨_, a2, a3⟩ := C166_apart hb
    obtain ⟨f1, st, s1, hl, hk⟩ := hs.step a3 hstep
    exact ⟨.others _ hb ⟨hl, fun k' t ht hc => hk _ fun x hx => a2 x hx k' t ht hc⟩, f1, .step hr st, s1⟩

end Verif.Ref
