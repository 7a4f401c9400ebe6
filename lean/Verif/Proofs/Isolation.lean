import Verif.Spec.Isolation
import Verif.Proofs.Together

/-!
# What a tick does to one trace
-/

namespace Verif

open Spec Std

theorem finishTree_clock (nf nf' : Time) (t : Tree) : finishTree nf t = finishTree nf' t := by
  have h : (withFakeRoot nf t).spans = (withFakeRoot nf' t).spans := by
    unfold withFakeRoot
    split
    · split
      · unfold Tree.addSpan
        dsimp only
        split <;> rfl
      · rfl
    · rfl
  unfold finishTree
  dsimp only
  rw [h]

theorem examine_clock (dU dS : Time) (nf nf' : Id → Time) (e : Id × Tree) : examine dU dS nf e = examine dU dS nf' e := by
  unfold examine
  rw [finishTree_clock (nf e.1) (nf' e.1)]

/-- What happens to the trace `k` in a tick without load. -/
def examined (bt now1 now2 : Time) (k : Id) (t : Option Tree) : List Removal :=
  match t with
  | none => []
  | some t => ((examine (now1 - bt) (now2 - 5 * bt) (fun _ => 0) (k, t)).map fun f => (⟨k, t, f⟩ : Removal)).toList

theorem filter_key {κ ν : Type} [DecidableEq κ] {l : List (κ × ν)} (h : (l.map Prod.fst).Nodup) (k : κ) :
    (∃ v, (k, v) ∈ l ∧ l.filter (fun e => e.1 == k) = [(k, v)]) ∨ ((∀ v, (k, v) ∉ l) ∧ l.filter (fun e => e.1 == k) = []) := by
  induction l with
  | nil => right; simp
  | cons e l ih =>
    obtain ⟨a, v⟩ := e
    rw [List.map_cons, List.nodup_cons] at h
    by_cases hk : a = k
    · subst hk
      left
      refine ⟨v, by simp, ?_⟩
      have : l.filter (fun e => e.1 == a) = [] := by
        rw [List.filter_eq_nil_iff]
        intro x hx
        simp only [beq_iff_eq]
        exact fun e => h.1 (by show a ∈ _; rw [← e]; exact List.mem_map_of_mem hx)
      rw [List.filter_cons, if_pos (by simp), this]
    · have hb : ((a, v).1 == k) = false := by simpa using hk
      rw [List.filter_cons, hb]
      simp only [Bool.false_eq_true, if_false, List.mem_cons, Prod.mk.injEq]
      rcases ih h.2 with ⟨u, h1, h2⟩ | ⟨h1, h2⟩
      · exact .inl ⟨u, .inr h1, h2⟩
      · refine .inr ⟨fun u hu => ?_, h2⟩
        rcases hu with ⟨e, _⟩ | hu
        · exact hk e.symm
        · exact h1 u hu

theorem removals_key {bt now1 now2 : Time} {nf : Id → Time} {m : ExtTreeMap Id Tree} {order : List (Id × Tree)} (h : IsRange order m) (k : Id) :
    (removals (now1 - bt) (now2 - 5 * bt) nf order).filter (fun r => r.id == k) = examined bt now1 now2 k m[k]? := by
  have e : (removals (now1 - bt) (now2 - 5 * bt) nf order).filter (fun r => r.id == k) = removals (now1 - bt) (now2 - 5 * bt) nf (order.filter fun e => e.1 == k) := by
    unfold removals
    rw [List.filter_filterMap, List.filterMap_filter]
    congr 1
    funext e
    cases examine (now1 - bt) (now2 - 5 * bt) nf e with
    | none => simp
    | some f => by_cases he : e.1 = k <;> simp [he, Option.filter]
  rw [e]
  rcases filter_key (range_keys_nodup h) k with ⟨t, h1, h2⟩ | ⟨h1, h2⟩
  · rw [(mem_range h).mp h1, h2]
    unfold removals examined
    dsimp only
    rw [List.filterMap_cons, examine_clock _ _ nf (fun _ => 0)]
    cases examine (now1 - bt) (now2 - 5 * bt) (fun _ => 0) (k, t) <;> rfl
  · have : m[k]? = none := by
      cases hm : m[k]? with
      | none => rfl
      | some t => exact absurd ((mem_range h).mpr hm) (h1 t)
    rw [this, h2]
    rfl

theorem isBlacklisted_iff (r : Removal) : r.fate.isBlacklisted = true ↔ Blocked r := by
  unfold Blocked Fate.isBlacklisted
  cases r.fate <;> simp

theorem size_le_blocked {bl : ExtTreeMap Id Unit} {l : List Removal} (h : ∀ k, bl[k]? = some () → ∃ r ∈ l, r.id = k ∧ Blocked r) :
    bl.size ≤ (l.filter fun r => decide (Blocked r)).length := by
  have hn : (bl.toList.map Prod.fst).Nodup := range_keys_nodup (isRange_refl bl)
  have hs : bl.toList.map Prod.fst ⊆ (l.filter fun r => decide (Blocked r)).map Removal.id := by
    intro k hk
    obtain ⟨⟨k', u⟩, hm, rfl⟩ := List.mem_map.mp hk
    obtain ⟨r, hr, hid, hb⟩ := h k' ((mem_range (isRange_refl bl)).mp hm)
    exact List.mem_map.mpr ⟨r, List.mem_filter.mpr ⟨hr, by simpa using hb⟩, hid⟩
  have := hn.length_le_of_subset hs
  rw [List.length_map, List.length_map, ExtTreeMap.length_toList] at this
  exact this

theorem trimBlacklist_few {l : List (Id × Unit)} {bl : ExtTreeMap Id Unit} (h : bl.size < 1024) : trimBlacklist l bl = bl := by
  cases l with
  | nil => rfl
  | cons e l => unfold trimBlacklist; rw [if_pos h]

/-- A tick without load, as far as the trace `k` is concerned. -/
theorem tick_one {w : World} (hw : WInv w) {i : TickInput} (hv : i.Valid w.c) (hc : counted w.c.traces.toList ≤ 100000) (hb : FewBlocked (w.tick i)) (k : Id) :
    let R := examined (Spec.bufferTime (counted w.c.traces.toList)) i.now1 i.now2 k w.c.traces[k]?
    (w.c.tick i).2.filter (fun r => r.id == k) = R ∧
    (w.c.tick i).1.traces[k]? = (if R = [] then w.c.traces[k]? else none) ∧
    (w.c.tick i).1.blacklist[k]? = (if R.any (fun r => r.fate.isBlacklisted) then some () else w.c.blacklist[k]?) := by
  obtain ⟨f1, f2, f3, f4⟩ := finishLoop_eq w.c i
  obtain ⟨n, hn, s1, s2, s3, _, s5, _, _⟩ := shed_eq w.c i
  dsimp only at *
  have hbt := hw.bt
  have hcnt : spanCountOf w.c.traces.toList = counted w.c.traces.toList :=
    spanCountOf_eq fun e he => (hw.trees e.1 e.2 ((mem_range (isRange_refl _)).mp he)).inv
  have h0 : n = 0 := s5 (by rw [hcnt]; exact hc)
  subst h0
  have hkey := removals_key (bt := bufferTime (spanCountOf w.c.traces.toList)) (now1 := i.now1) (now2 := i.now2) (nf := i.nowFake) hv.order k
  rw [hbt] at f1 f2 f3 hkey
  generalize Spec.bufferTime (counted w.c.traces.toList) = bt at *
  have e2 : (w.c.tick i).2 = removals (i.now1 - bt) (i.now2 - 5 * bt) i.nowFake i.order := by
    show (w.c.shed i).2 = _
    rw [s1, f1]; simp
  have etr : (w.c.tick i).1.traces[k]? = (w.c.finishLoop i).1.traces[k]? := by
    show (w.c.shed i).1.traces[k]? = _
    rw [s2]; simp
  have ebl : (w.c.tick i).1.blacklist = (w.c.finishLoop i).1.blacklist := by
    show trimBlacklist i.blOrder (w.c.shed i).1.blacklist = _
    rw [trimBlacklist_few, s3]
    rw [s3]
    refine Nat.lt_succ_of_le (Nat.le_trans (size_le_blocked fun k hk => ?_) hb)
    show ∃ r ∈ w.removed ++ (w.c.tick i).2, _
    rw [e2]
    rw [f3] at hk
    split at hk
    · next ha =>
      obtain ⟨r, hr, h⟩ := List.any_eq_true.mp ha
      rw [Bool.and_eq_true] at h
      exact ⟨r, List.mem_append_right _ hr, by simpa using h.1, (isBlacklisted_iff r).mp h.2⟩
    · obtain ⟨r, hr, hid, hf⟩ := hw.blocked k hk
      refine ⟨r, List.mem_append_left _ hr, hid, ?_⟩
      unfold Blocked
      rcases hf with hf | hf <;> rw [hf] <;> trivial
  rw [e2, hkey, etr, ebl, f2, f3]
  refine ⟨rfl, ?_, ?_⟩
  · have : (removals (i.now1 - bt) (i.now2 - 5 * bt) i.nowFake i.order).any (fun r => r.id == k) = true ↔ examined bt i.now1 i.now2 k w.c.traces[k]? ≠ [] := by
      rw [← hkey, ne_eq, List.filter_eq_nil_iff, List.any_eq_true]
      simp
    by_cases h : examined bt i.now1 i.now2 k w.c.traces[k]? = []
    · rw [if_pos h, if_neg (fun ha => this.mp ha h)]
    · rw [if_neg h, if_pos (this.mpr h)]
  · have : (removals (i.now1 - bt) (i.now2 - 5 * bt) i.nowFake i.order).any (fun r => r.id == k && r.fate.isBlacklisted) =
        (examined bt i.now1 i.now2 k w.c.traces[k]?).any (fun r => r.fate.isBlacklisted) := by
      rw [← hkey, List.any_filter]
    rw [this]

/-- What a span does to the state of one trace. -/
theorem receive_one {w : World} (now1 now2 : Time) (s : Span) (k : Id) :
    (w.receive now1 now2 s).c.traces[k]? =
      (if Traced s ∧ s.trace = k ∧ w.c.blacklist[k]? = none then some (((w.c.traces[k]?).getD (newTree now1 k)).addSpan now2 s) else w.c.traces[k]?) ∧
    (w.receive now1 now2 s).c.blacklist[k]? = w.c.blacklist[k]? ∧
    (w.receive now1 now2 s).refused.filter (fun x => x.trace == k) =
      w.refused.filter (fun x => x.trace == k) ++ (if Traced s ∧ s.trace = k ∧ w.c.blacklist[k]? ≠ none then [s] else []) ∧
    (w.receive now1 now2 s).removed = w.removed := by
  have hcon : w.c.blacklist.contains s.trace = true ↔ w.c.blacklist[s.trace]? ≠ none := by
    rw [contains_iff]
    cases w.c.blacklist[s.trace]? <;> simp
  refine ⟨?_, ?_, ?_, rfl⟩
  · show (w.c.receive now1 now2 s).traces[k]? = _
    unfold Collector.receive
    by_cases ht : Traced s
    · rw [if_neg (fun h => (not_traced_iff s).mp h ht)]
      by_cases hk : s.trace = k
      · subst hk
        by_cases hb : w.c.blacklist[s.trace]? = none
        · rw [if_neg (fun h => hcon.mp h hb), if_pos ⟨ht, rfl, hb⟩]
          dsimp only
          rw [get_insert, if_pos rfl]
        · rw [if_pos (hcon.mpr hb), if_neg (fun h => hb h.2.2)]
      · rw [if_neg (c := Traced s ∧ _) (fun h => hk h.2.1)]
        split
        · rfl
        · dsimp only
          rw [get_insert, if_neg hk]
    · rw [if_pos ((not_traced_iff s).mpr ht), if_neg (fun h => ht h.1)]
  · show (w.c.receive now1 now2 s).blacklist[k]? = _
    unfold Collector.receive
    split
    · rfl
    · split <;> rfl
  · show List.filter _ (if ¬ (s.trace = 0 ∨ s.id = 0) ∧ w.c.blacklist.contains s.trace then w.refused ++ [s] else w.refused) = _
    by_cases ht : Traced s
    · have h0 : ¬ (s.trace = 0 ∨ s.id = 0) := fun h => (not_traced_iff s).mp h ht
      by_cases hk : s.trace = k
      · subst hk
        by_cases hb : w.c.blacklist[s.trace]? = none
        · rw [if_neg (fun h => hcon.mp h.2 hb), if_neg (fun h => h.2.2 hb), List.append_nil]
        · rw [if_pos ⟨h0, hcon.mpr hb⟩, if_pos ⟨ht, rfl, hb⟩, List.filter_append]
          simp
      · rw [if_neg (c := Traced s ∧ _) (fun h => hk h.2.1), List.append_nil]
        split
        · rw [List.filter_append]
          simp [hk]
        · rfl
    · rw [if_neg (fun h => h.1 ((not_traced_iff s).mpr ht)), if_neg (fun h => ht h.1), List.append_nil]

theorem Spec.Alike.reachable {k : Id} {w w' : World} (h : Alike k w w') : Reachable w ∧ Reachable w' := by
  induction h with
  | init now now' => exact ⟨.init _, .init _⟩
  | left now1 now2 s _ h1 h2 _ ih => exact ⟨.receive _ _ _ ih.1 h1 h2, ih.2⟩
  | right now1 now2 s _ h1 h2 _ ih => exact ⟨ih.1, .receive _ _ _ ih.2 h1 h2⟩
  | both now1 now2 s _ h1 h1' h2 _ ih => exact ⟨.receive _ _ _ ih.1 h1 h2, .receive _ _ _ ih.2 h1' h2⟩
  | tick i i' _ hv hv' h1 h1' _ _ _ _ _ _ _ ih => exact ⟨.tick _ ih.1 hv h1, .tick _ ih.2 hv' h1'⟩

end Verif
