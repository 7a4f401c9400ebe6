import Verif.Spec.TagForward
import Verif.Proofs.Forward
import Verif.Proofs.Account
import Verif.Props.TagHeap

/-!
# Converters that write tags in place: the invariant
-/

namespace Verif

open Spec Std

variable {κ : Type}

/-- Other spans are sent, and maps of no pending span are written. -/
theorem TagInv.edit {tr : Id → Option (List Span)} {em : List (List Span)} {st st' : TagState} (inv : TagInv tr em st) (hp : st'.pending = st.pending) (hlen : st.heap.length ≤ st'.heap.length)
    (hframe : ∀ a k id, st.Owns k id a → st'.heap.getD a {} = st.heap.getD a {})
    (hsb : ∀ q ∈ st'.delivered.flatten, ∀ a, q.ref = some a → a < st'.heap.length ∧ ∀ k id, ¬ st.Owns k id a)
    (hsingle : (st'.delivered.flatten.filterMap RSpan.ref).Nodup) : TagInv tr (st'.delivered.map (List.map (RSpan.read st'.heap))) st' := by
  have ho : ∀ {k id a}, st'.Owns k id a → st.Owns k id a := by
    rintro k id a ⟨l, q, h1, h2⟩
    exact ⟨l, q, by rw [← hp]; exact h1, h2⟩
  refine ⟨fun k => ?_, inv.sorted, fun k id a h => Nat.lt_of_lt_of_le (inv.bound _ _ _ (ho h)) hlen, fun k id k' id' a h h' => inv.unique _ _ _ _ _ (ho h) (ho h'), rfl,
    fun l hl q hq a ha => ?_, hsingle⟩
  · rw [← inv.value k, hp]
    cases hk : st.pending[k]? with
    | none => rfl
    | some l =>
      simp only [Option.map_some, Option.some.injEq]
      exact List.map_congr_left fun q hq => read_congr fun a ha => hframe a k q.val.id ⟨l, q, hk, hq, rfl, ha⟩
  · obtain ⟨h1, h2⟩ := hsb q (List.mem_flatten.mpr ⟨l, hl, hq⟩) a ha
    exact ⟨h1, fun k id h => h2 k id (ho h)⟩

/-- What the converter does to the maps. -/
theorem Edit.apply_spec (e : Edit) {h : TagHeap} {s : RSpan} (hs : ∀ a, s.ref = some a → a < h.length) :
    h.length ≤ (e.apply h s).1.length ∧ (∀ a, a < h.length → s.ref ≠ some a → (e.apply h s).1.getD a {} = h.getD a {}) ∧
    (e.apply h s).2.map (RSpan.read (e.apply h s).1) = e.value (s.read h) ∧
    ∀ r, (e.apply h s).2 = some r → ∀ a, r.ref = some a → s.ref = some a ∨ (h.length ≤ a ∧ a < (e.apply h s).1.length) := by
  have hlen : (e.write h s).length = h.length := by unfold Edit.write; split <;> simp
  have hfr : ∀ a, s.ref ≠ some a → (e.write h s).getD a {} = h.getD a {} := by
    intro a ha
    unfold Edit.write
    split
    · rename_i b m _ _
      have hba : b ≠ a := by
        intro hc; subst hc; exact ha ‹_›
      rw [List.getD_eq_getElem?_getD, List.getElem?_set_ne hba, ← List.getD_eq_getElem?_getD]
    · rfl
  have hleft : s.ref.map (fun a => ((e.write h s).getD a {}).tags) = e.left (s.read h) := by
    unfold Edit.left RSpan.read Edit.write
    cases hr : s.ref with
    | none => rfl
    | some a =>
      cases hc : e.contents with
      | none => rfl
      | some m =>
        have := hs a hr
        simp only [Option.map_some, Option.some.injEq]
        rw [List.getD_eq_getElem?_getD, List.getElem?_set_self this]
        rfl
  unfold Edit.apply
  generalize e.write h s = h1 at hlen hfr hleft
  unfold Edit.value
  match e.result with
  | none => exact ⟨by simp [hlen], fun a _ ha => hfr a ha, rfl, fun r hr => nomatch hr⟩
  | some (v, .same) =>
    refine ⟨by simp [hlen], fun a _ ha => hfr a ha, ?_, fun r hr a ha => ?_⟩
    · simp only [Option.map_some, RSpan.read, hleft]
    · cases hr; exact .inl ha
  | some (v, .nil) => exact ⟨by simp [hlen], fun a _ ha => hfr a ha, rfl, fun r hr a ha => by cases hr; cases ha⟩
  | some (v, .fresh m) =>
    refine ⟨by simp [hlen], fun a hb ha => ?_, ?_, fun r hr a ha => ?_⟩
    · dsimp only
      rw [← hfr a ha, List.getD_eq_getElem?_getD, List.getD_eq_getElem?_getD, List.getElem?_append_left (by omega)]
    · simp [RSpan.read]
    · cases hr
      cases ha
      exact .inr ⟨by simp [hlen], by simp⟩

/-- Where the forwarder is: the traces `fwd` are with the targets, and the spans `pre` of the next one are converted. -/
def TagForward.At (conv : κ → Span → Option Span × κ) (k : κ) (g : TagForward κ) (fwd : List (List Span)) (pre : List Span) : Prop :=
  g.out.map (List.map (RSpan.read g.st.heap)) = convertTraces conv k fwd ∧
  match g.current with
  | none => emittedOf g.world.removed = fwd ++ g.st.delivered.map (List.map (RSpan.read g.st.heap)) ∧ g.conv = convAfter conv k fwd
  | some (done, todo) =>
    emittedOf g.world.removed = fwd ++ (pre ++ todo.map (RSpan.read g.st.heap)) :: g.st.delivered.map (List.map (RSpan.read g.st.heap)) ∧
    done.map (RSpan.read g.st.heap) = (convertAll conv (convAfter conv k fwd) pre).1 ∧ g.conv = (convertAll conv (convAfter conv k fwd) pre).2

structure TagForward.Inv (edit : κ → Span → Edit × κ) (k : κ) (g : TagForward κ) : Prop where
  reach : Verif.Reachable g.world
  tags : TagInv (pendingSpans g.world.c) (g.all.map (List.map (RSpan.read g.st.heap))) { g.st with delivered := g.all }
  at' : ∃ fwd pre, g.At (byValue edit) k fwd pre

theorem receive_delivered (st : TagState) (c : Collector) (o o' : List (Str × Str)) (s : Span) (d : List (List RSpan)) :
    ({ st with delivered := d } : TagState).receive c o o' s = { st.receive c o o' s with delivered := d } := by
  simp only [TagState.receive]
  split <;> rfl

theorem remove_delivered (st : TagState) (r : Removal) (d : List (List RSpan)) :
    ({ st with delivered := d ++ st.delivered } : TagState).remove r = { st.remove r with delivered := d ++ (st.remove r).delivered } := by
  simp only [TagState.remove]
  split
  · simp
  · rfl

theorem removeAll_delivered (R : List Removal) (d : List (List RSpan)) : ∀ (st : TagState),
    R.foldl TagState.remove { st with delivered := d ++ st.delivered } = { R.foldl TagState.remove st with delivered := d ++ (R.foldl TagState.remove st).delivered } := by
  induction R with
  | nil => intro st; rfl
  | cons r R ih =>
    intro st
    rw [List.foldl_cons, List.foldl_cons, remove_delivered, ih]

theorem convertAll_snoc (conv : κ → Span → Option Span × κ) (k : κ) (l : List Span) (s : Span) :
    convertAll conv k (l ++ [s]) = ((convertAll conv k l).1 ++ ((conv (convertAll conv k l).2 s).1.toList.filter fun c => c.id ≠ 0 ∧ c.trace ≠ 0), (conv (convertAll conv k l).2 s).2) := by
  rw [convertAll_append]
  simp [convertAll]

theorem TagForward.all_current {g : TagForward κ} {done todo : List RSpan} (h : g.current = some (done, todo)) : g.all.flatten = g.out.flatten ++ (done ++ (todo ++ g.st.delivered.flatten)) := by
  simp [TagForward.all, h]

theorem read_all {h h' : TagHeap} {l : List RSpan} (hq : ∀ q ∈ l, ∀ a, q.ref = some a → h'.getD a {} = h.getD a {}) : l.map (RSpan.read h') = l.map (RSpan.read h) :=
  List.map_congr_left fun q hq' => read_congr (hq q hq')

theorem read_traces {h h' : TagHeap} {l : List (List RSpan)} (hq : ∀ q ∈ l.flatten, ∀ a, q.ref = some a → h'.getD a {} = h.getD a {}) :
    l.map (List.map (RSpan.read h')) = l.map (List.map (RSpan.read h)) :=
  List.map_congr_left fun t ht => read_all fun q hq' => hq q (List.mem_flatten.mpr ⟨t, ht, hq'⟩)

/-- The maps of spans that left the collector do not change; then the forwarder is where it was. -/
theorem TagForward.At.frame {conv : κ → Span → Option Span × κ} {k : κ} {g : TagForward κ} {fwd : List (List Span)} {pre : List Span} (h : g.At conv k fwd pre) {w : World} {st : TagState}
    {new : List (List RSpan)} (hw : emittedOf w.removed = emittedOf g.world.removed ++ new.map (List.map (RSpan.read st.heap))) (hd : st.delivered = g.st.delivered ++ new)
    (hf : ∀ q ∈ g.all.flatten, ∀ a, q.ref = some a → st.heap.getD a {} = g.st.heap.getD a {}) : TagForward.At conv k { g with world := w, st := st } fwd pre := by
  obtain ⟨h1, h2⟩ := h
  refine ⟨?_, ?_⟩
  · dsimp only
    rw [← h1]
    exact read_traces fun q hq => hf q (by simp [TagForward.all, List.flatten_append] at hq ⊢; exact .inl hq)
  · have e : g.st.delivered.map (List.map (RSpan.read st.heap)) = g.st.delivered.map (List.map (RSpan.read g.st.heap)) :=
      read_traces fun q hq => hf q (by simp only [TagForward.all, List.flatten_append]; exact List.mem_append_right _ hq)
    cases hc : g.current with
    | none =>
      rw [hc] at h2
      dsimp only at h2 ⊢
      rw [hw, hd, h2.1, List.map_append, e, List.append_assoc]
      exact ⟨rfl, h2.2⟩
    | some c =>
      obtain ⟨done, todo⟩ := c
      rw [hc] at h2
      dsimp only at h2 ⊢
      rw [TagForward.all_current hc] at hf
      have e1 : todo.map (RSpan.read st.heap) = todo.map (RSpan.read g.st.heap) := read_all fun q hq => hf q (by simp [hq])
      have e2 : done.map (RSpan.read st.heap) = done.map (RSpan.read g.st.heap) := read_all fun q hq => hf q (by simp [hq])
      rw [hw, hd, h2.1, List.map_append, e, e1, e2]
      exact ⟨by simp, h2.2⟩

/-- A step of the collector does not change the maps of spans that left it. -/
theorem TagForward.Inv.collect {edit : κ → Span → Edit × κ} {k : κ} {g : TagForward κ} (inv : g.Inv edit k) {w : World} {st : TagState} (hs : TagStep (g.world, g.st) (w, st)) :
    TagForward.Inv edit k { g with world := w, st := st } ∧ ∀ q ∈ g.all.flatten, ∀ a, q.ref = some a → st.heap.getD a {} = g.st.heap.getD a {} := by
  obtain ⟨hw, tags, fwd, pre, hat⟩ := inv
  have sb : ∀ q ∈ g.all.flatten, ∀ a, q.ref = some a → a < g.st.heap.length ∧ ∀ k id, ¬ g.st.Owns k id a := by
    intro q hq a ha
    obtain ⟨l, hl, hql⟩ := List.mem_flatten.mp hq
    exact tags.sbound l hl q hql a ha
  generalize hp : (w, st) = p at hs
  generalize hp0 : (g.world, g.st) = p0 at hs
  cases hs with
  | @receive w0 st0 now1 now2 s ordNew ordClient h1 h2 hon hoc =>
    cases hp; cases hp0
    obtain ⟨h3, h4, h5⟩ := tags.receive now1 now2 hon hoc
    rw [receive_delivered] at h3 h4 h5
    have hf : ∀ q ∈ g.all.flatten, ∀ a, q.ref = some a → (g.st.receive g.world.c ordNew ordClient s).heap.getD a {} = g.st.heap.getD a {} :=
      fun q hq a ha => h4 a (sb q hq a ha).1 ((sb q hq a ha).2 _ _)
    have hd : (g.st.receive g.world.c ordNew ordClient s).delivered = g.st.delivered := by
      simp only [TagState.receive]; split <;> rfl
    refine ⟨⟨.receive now1 now2 s hw h1 h2, ?_, fwd, pre, hat.frame (new := []) (by simp [World.receive]) (by rw [hd]; simp) hf⟩, hf⟩
    have e : TagForward.all { g with world := g.world.receive now1 now2 s, st := g.st.receive g.world.c ordNew ordClient s } = g.all := by
      simp only [TagForward.all, hd]
    rw [e]
    dsimp only
    rw [read_traces hf]
    exact h5
  | @tick w0 st0 i hv h1 =>
    cases hp; cases hp0
    obtain ⟨_, _, _, htr, _, _, hnd, hmem⟩ := tick_eq g.world.c i hv
    have hfin : ∀ r ∈ (g.world.c.tick i).2, ∀ out, r.fate = .emitted out → Finished r.id r.tree.spans out :=
      fun r hr out ho => ((removed_spec (Reachable.tick i hw hv h1) r (List.mem_append_right _ hr)).2 out ho).1
    obtain ⟨h3, h4, h5⟩ := tags.removeAll _ hnd (fun r hr => by unfold pendingSpans; rw [hmem r hr]; rfl) hfin
    have e1 : pendingSpans (g.world.tick i).c = fun k => if (g.world.c.tick i).2.any (fun r => r.id == k) then none else pendingSpans g.world.c k := by
      funext k
      show Option.map Tree.spans ((g.world.c.tick i).1.traces[k]?) = _
      rw [htr]
      split <;> rfl
    have e2 : emittedOf (g.world.tick i).removed = emittedOf g.world.removed ++ emittedOf (g.world.c.tick i).2 := List.filterMap_append
    rw [show ({ g.st with delivered := g.all } : TagState) = { g.st with delivered := (g.out ++ (g.current.map fun c => c.1 ++ c.2).toList) ++ g.st.delivered } from rfl, removeAll_delivered] at h3 h4 h5
    dsimp only at h3
    obtain ⟨new, hnew⟩ : g.st.delivered <+: ((g.world.c.tick i).2.foldl TagState.remove g.st).delivered := by
      have := h4
      dsimp only at this
      exact (List.prefix_append_right_inj _).mp this
    have hf : ∀ q ∈ g.all.flatten, ∀ a, q.ref = some a → ((g.world.c.tick i).2.foldl TagState.remove g.st).heap.getD a {} = g.st.heap.getD a {} := by
      intro q _ a _; rw [h3]
    have hsent := h5.sent
    dsimp only at hsent
    have hall : TagForward.all { g with world := g.world.tick i, st := (g.world.c.tick i).2.foldl TagState.remove g.st } = g.all ++ new := by
      simp only [TagForward.all, ← hnew, List.append_assoc]
    have hnews : new.map (List.map (RSpan.read ((g.world.c.tick i).2.foldl TagState.remove g.st).heap)) = emittedOf (g.world.c.tick i).2 := by
      rw [← hnew, ← List.append_assoc, List.map_append, h3] at hsent
      rw [h3]
      exact List.append_cancel_left hsent
    refine ⟨⟨.tick i hw hv h1, ?_, fwd, pre, hat.frame (new := new) (by rw [e2, hnews]) hnew.symm hf⟩, hf⟩
    rw [hall, e1]
    dsimp only
    have e3 : (g.all ++ new).map (List.map (RSpan.read ((g.world.c.tick i).2.foldl TagState.remove g.st).heap)) = g.all.map (List.map (RSpan.read g.st.heap)) ++ emittedOf (g.world.c.tick i).2 := by
      rw [List.map_append, hnews, h3]
    rw [e3]
    have e4 : g.all ++ new = (g.out ++ (g.current.map fun c => c.1 ++ c.2).toList) ++ ((g.world.c.tick i).2.foldl TagState.remove g.st).delivered := by
      rw [← hnew, ← List.append_assoc]; rfl
    rw [e4]
    exact h5

/-- The converter changes the map of no other span. -/
theorem TagForward.Inv.convert {edit : κ → Span → Edit × κ} {k : κ} {g : TagForward κ} (inv : g.Inv edit k) {done : List RSpan} {s : RSpan} {todo : List RSpan} (hc : g.current = some (done, s :: todo)) :
    TagForward.Inv edit k
      (let e := edit g.conv (s.read g.st.heap)
       let r := e.1.apply g.st.heap s
       { g with
         st := { g.st with heap := r.1 }
         conv := e.2
         current := some (done ++ r.2.toList.filter (fun c => c.val.id ≠ 0 ∧ c.val.trace ≠ 0), todo) }) ∧
    (∀ q ∈ g.out.flatten ++ (done ++ (todo ++ g.st.delivered.flatten)), ∀ a, q.ref = some a →
      ((edit g.conv (s.read g.st.heap)).1.apply g.st.heap s).1.getD a {} = g.st.heap.getD a {}) ∧
    g.st.heap.length ≤ ((edit g.conv (s.read g.st.heap)).1.apply g.st.heap s).1.length := by
  obtain ⟨hw, tags, fwd, pre, hat⟩ := inv
  have sb : ∀ q ∈ g.all.flatten, ∀ a, q.ref = some a → a < g.st.heap.length ∧ ∀ k id, ¬ g.st.Owns k id a := by
    intro q hq a ha
    obtain ⟨l, hl, hql⟩ := List.mem_flatten.mp hq
    exact tags.sbound l hl q hql a ha
  have single : (g.all.flatten.filterMap RSpan.ref).Nodup := tags.single
  rw [TagForward.all_current hc] at sb single
  have hsin : s ∈ g.out.flatten ++ (done ++ (s :: todo ++ g.st.delivered.flatten)) := by simp
  obtain ⟨p1, p2, p3, p4⟩ := (edit g.conv (s.read g.st.heap)).1.apply_spec (h := g.st.heap) (s := s) (fun a ha => (sb s hsin a ha).1)
  have hval : byValue edit g.conv (s.read g.st.heap) = (((edit g.conv (s.read g.st.heap)).1.apply g.st.heap s).2.map (RSpan.read ((edit g.conv (s.read g.st.heap)).1.apply g.st.heap s).1),
      (edit g.conv (s.read g.st.heap)).2) := by
    rw [p3]; rfl
  dsimp only
  generalize (edit g.conv (s.read g.st.heap)).1.apply g.st.heap s = r at p1 p2 p3 p4 hval ⊢
  generalize (edit g.conv (s.read g.st.heap)).2 = k1 at hval ⊢
  obtain ⟨h', res⟩ := r
  dsimp only at p1 p2 p3 p4 hval ⊢
  -- the maps of the others
  have single' : ((g.out.flatten ++ done).filterMap RSpan.ref ++ (s.ref.toList ++ (todo ++ g.st.delivered.flatten).filterMap RSpan.ref)).Nodup := by
    have e : (g.out.flatten ++ (done ++ (s :: todo ++ g.st.delivered.flatten))).filterMap RSpan.ref =
        (g.out.flatten ++ done).filterMap RSpan.ref ++ (s.ref.toList ++ (todo ++ g.st.delivered.flatten).filterMap RSpan.ref) := by
      simp only [List.filterMap_append, List.append_assoc, List.cons_append, List.filterMap_cons]
      cases s.ref <;> simp
    rw [← e]; exact single
  have hother : ∀ q ∈ g.out.flatten ++ (done ++ (todo ++ g.st.delivered.flatten)), ∀ a, q.ref = some a → s.ref ≠ some a := by
    intro q hq a ha hsa
    rw [List.nodup_append] at single'
    obtain ⟨_, n2, n3⟩ := single'
    rw [← List.append_assoc, List.mem_append] at hq
    rcases hq with hq | hq
    · exact n3 a (List.mem_filterMap.mpr ⟨q, hq, ha⟩) a (by simp [hsa]) rfl
    · rw [List.nodup_append] at n2
      exact n2.2.2 a (by simp [hsa]) a (List.mem_filterMap.mpr ⟨q, hq, ha⟩) rfl
  have hsub : ∀ q ∈ g.out.flatten ++ (done ++ (todo ++ g.st.delivered.flatten)), q ∈ g.out.flatten ++ (done ++ (s :: todo ++ g.st.delivered.flatten)) := by
    intro q hq
    simp only [List.mem_append, List.mem_cons] at hq ⊢
    rcases hq with h | h | h | h
    · exact .inl h
    · exact .inr (.inl h)
    · exact .inr (.inr (.inl (.inr h)))
    · exact .inr (.inr (.inr h))
  have hf : ∀ q ∈ g.out.flatten ++ (done ++ (todo ++ g.st.delivered.flatten)), ∀ a, q.ref = some a → h'.getD a {} = g.st.heap.getD a {} :=
    fun q hq a ha => p2 a (sb q (hsub q hq) a ha).1 (hother q hq a ha)
  -- the span that is given
  generalize hkept : res.toList.filter (fun c => decide (c.val.id ≠ 0 ∧ c.val.trace ≠ 0)) = kept
  have hk1 : ∀ q ∈ kept, res = some q := by
    intro q hq
    rw [← hkept] at hq
    have := (List.mem_filter.mp hq).1
    exact Option.mem_toList.mp this
  have hk2 : kept = [] ∨ ∃ q, kept = [q] := by
    rw [← hkept]
    cases res with
    | none => exact .inl rfl
    | some q =>
      by_cases hq : decide (q.val.id ≠ 0 ∧ q.val.trace ≠ 0) = true
      · exact .inr ⟨q, by simp only [Option.toList_some, List.filter_cons, hq]; rfl⟩
      · exact .inl (by simp only [Option.toList_some, List.filter_cons, hq]; rfl)
  have hall : TagForward.all { g with st := { g.st with heap := h' }, conv := k1, current := some (done ++ kept, todo) } = g.out ++ [done ++ kept ++ todo] ++ g.st.delivered := by
    simp [TagForward.all]
  have hflat : (g.out ++ [done ++ kept ++ todo] ++ g.st.delivered).flatten = (g.out.flatten ++ done) ++ (kept ++ (todo ++ g.st.delivered.flatten)) := by simp
  refine ⟨⟨hw, ?_, fwd, pre ++ [s.read g.st.heap], ?_⟩, hf, p1⟩
  · rw [hall]
    refine TagInv.edit (st' := { g.st with heap := h', delivered := g.out ++ [done ++ kept ++ todo] ++ g.st.delivered }) tags rfl p1 ?_ ?_ ?_
    · intro a k' id ho
      exact p2 a (tags.bound _ _ _ ho) fun hc' => (sb s hsin a hc').2 k' id ho
    · dsimp only
      rw [hflat]
      intro q hq a ha
      have hold : ∀ q ∈ g.out.flatten ++ (done ++ (s :: todo ++ g.st.delivered.flatten)), q.ref = some a → a < h'.length ∧ ∀ k id, ¬ g.st.Owns k id a :=
        fun q hq ha => ⟨Nat.lt_of_lt_of_le (sb q hq a ha).1 p1, (sb q hq a ha).2⟩
      rw [List.mem_append, List.mem_append, List.mem_append] at hq
      rcases hq with (hq | hq) | hq | hq
      · exact hold q (by simp only [List.mem_append]; exact .inl hq) ha
      · exact hold q (by simp only [List.mem_append]; exact .inr (.inl hq)) ha
      · rcases p4 q (hk1 q hq) a ha with h | ⟨h1, h2⟩
        · exact hold s hsin h
        · exact ⟨h2, fun k' id ho => absurd (tags.bound _ _ _ ho) (Nat.not_lt.mpr h1)⟩
      · exact hold q (hsub q (by simp only [List.mem_append] at hq ⊢; exact .inr (.inr hq))) ha
    · dsimp only
      rw [hflat, List.filterMap_append, show (kept ++ (todo ++ g.st.delivered.flatten)).filterMap RSpan.ref = kept.filterMap RSpan.ref ++ (todo ++ g.st.delivered.flatten).filterMap RSpan.ref from
        List.filterMap_append]
      rw [List.nodup_append] at single'
      obtain ⟨n1, n2, n3⟩ := single'
      rw [List.nodup_append] at n2
      obtain ⟨_, n4, n5⟩ := n2
      have n6 : ∀ a ∈ (g.out.flatten ++ done).filterMap RSpan.ref, ∀ b ∈ (todo ++ g.st.delivered.flatten).filterMap RSpan.ref, a ≠ b :=
        fun a ha b hb => n3 a ha b (List.mem_append_right _ hb)
      have hnew : ∀ a ∈ kept.filterMap RSpan.ref, (∀ b ∈ (g.out.flatten ++ done).filterMap RSpan.ref, b ≠ a) ∧ ∀ b ∈ (todo ++ g.st.delivered.flatten).filterMap RSpan.ref, a ≠ b := by
        intro a ha
        obtain ⟨q, hq, hqa⟩ := List.mem_filterMap.mp ha
        rcases p4 q (hk1 q hq) a hqa with h | ⟨h1, _⟩
        · exact ⟨fun b hb => n3 b hb a (by simp [h]), fun b hb => n5 a (by simp [h]) b hb⟩
        · refine ⟨fun b hb => ?_, fun b hb => ?_⟩
          · obtain ⟨q', hq', hb'⟩ := List.mem_filterMap.mp hb
            have := (sb q' (by rw [← List.append_assoc]; exact List.mem_append_left _ hq') b hb').1
            omega
          · obtain ⟨q', hq', hb'⟩ := List.mem_filterMap.mp hb
            have := (sb q' (hsub q' (by rw [← List.append_assoc]; exact List.mem_append_right _ hq')) b hb').1
            omega
      rw [List.nodup_append, List.nodup_append]
      refine ⟨n1, ⟨?_, n4, fun a ha b hb => (hnew a ha).2 b hb⟩, fun a ha b hb => ?_⟩
      · rcases hk2 with rfl | ⟨q, rfl⟩
        · simp
        · cases hq : q.ref <;> simp [List.filterMap_cons, hq]
      · rcases List.mem_append.mp hb with hb | hb
        · exact (hnew b hb).1 a ha
        · exact n6 a ha b hb
  · obtain ⟨h1, h2⟩ := hat
    rw [hc] at h2
    obtain ⟨h2, h3, h4⟩ := h2
    have e0 : g.out.map (List.map (RSpan.read h')) = g.out.map (List.map (RSpan.read g.st.heap)) := read_traces fun q hq => hf q (by simp only [List.mem_append]; exact .inl hq)
    have e1 : done.map (RSpan.read h') = done.map (RSpan.read g.st.heap) := read_all fun q hq => hf q (by simp only [List.mem_append]; exact .inr (.inl hq))
    have e2 : todo.map (RSpan.read h') = todo.map (RSpan.read g.st.heap) := read_all fun q hq => hf q (by simp only [List.mem_append]; exact .inr (.inr (.inl hq)))
    have e3 : g.st.delivered.map (List.map (RSpan.read h')) = g.st.delivered.map (List.map (RSpan.read g.st.heap)) :=
      read_traces fun q hq => hf q (by simp only [List.mem_append]; exact .inr (.inr (.inr hq)))
    refine ⟨e0.trans h1, ?_, ?_, ?_⟩
    · dsimp only
      rw [h2, e2, e3]
      simp
    · dsimp only
      rw [convertAll_snoc, ← h4, hval, List.map_append, e1, h3, ← hkept]
      congr 1
      cases res with
      | none => rfl
      | some q =>
        by_cases hq : decide (q.val.id ≠ 0 ∧ q.val.trace ≠ 0) = true
        · have hq' : decide ((q.read h').id ≠ 0 ∧ (q.read h').trace ≠ 0) = true := hq
          simp only [Option.toList_some, Option.map_some, List.filter_cons, hq, hq', if_true, List.filter_nil, List.map_cons, List.map_nil]
        · have hq' : ¬ decide ((q.read h').id ≠ 0 ∧ (q.read h').trace ≠ 0) = true := hq
          simp only [Option.toList_some, Option.map_some, List.filter_cons, hq, hq', List.filter_nil]
          rfl
    · dsimp only
      rw [convertAll_snoc, ← h4, hval]

theorem TagForward.Inv.take {edit : κ → Span → Edit × κ} {k : κ} {g : TagForward κ} (inv : g.Inv edit k) {t : List RSpan} {rest : List (List RSpan)} (hd : g.st.delivered = t :: rest) (hc : g.current = none) :
    TagForward.Inv edit k { g with st := { g.st with delivered := rest }, current := some ([], t) } := by
  obtain ⟨hw, tags, fwd, pre, h1, h2⟩ := inv
  have e : TagForward.all { g with st := { g.st with delivered := rest }, current := some ([], t) } = g.all := by simp [TagForward.all, hc, hd]
  refine ⟨hw, by rw [e]; exact tags, fwd, [], h1, ?_⟩
  rw [hc] at h2
  obtain ⟨h2, h3⟩ := h2
  refine ⟨?_, rfl, h3⟩
  dsimp only
  rw [h2, hd]
  rfl

theorem TagForward.Inv.send {edit : κ → Span → Edit × κ} {k : κ} {g : TagForward κ} (inv : g.Inv edit k) {done : List RSpan} (hc : g.current = some (done, [])) :
    TagForward.Inv edit k { g with out := g.out ++ [done], current := none } := by
  obtain ⟨hw, tags, fwd, pre, h1, h2⟩ := inv
  have e : TagForward.all { g with out := g.out ++ [done], current := none } = g.all := by simp [TagForward.all, hc]
  rw [hc] at h2
  obtain ⟨h2, h3, h4⟩ := h2
  refine ⟨hw, by rw [e]; exact tags, fwd ++ [pre], [], ?_, ?_, ?_⟩
  · dsimp only
    rw [convertTraces_append, List.map_append, h1, List.map_cons, h3]
    rfl
  · dsimp only
    rw [h2]
    simp
  · dsimp only
    rw [h4]
    unfold convAfter
    rw [List.foldl_append]
    rfl

theorem TagForward.Reachable.inv {edit : κ → Span → Edit × κ} {k : κ} {g : TagForward κ} (h : g.Reachable edit k) : g.Inv edit k := by
  induction h with
  | init now =>
    have := (tagRun_inv (.init now)).2
    exact ⟨.init now, this, [], [], rfl, rfl, rfl⟩
  | step _ hs ih =>
    cases hs with
    | collect h => exact (ih.collect h).1
    | take hd hc => exact ih.take hd hc
    | convert hc => exact (ih.convert hc).1
    | send hc => exact ih.send hc

end Verif
