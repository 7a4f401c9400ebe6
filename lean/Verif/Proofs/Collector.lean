import Verif.Proofs.Finish

/-!
# The loops of the collector
-/

namespace Verif

open Spec

/-! ## The loop over the traces -/

/-- The fate of a trace in the loop of `finishTraces`, `none` if it stays. -/
def examine (dU dS : Time) (nf : Id → Time) (e : Id × Tree) : Option Fate :=
  if !e.2.tooLarge && !decide (e.2.started < dS) && decide (e.2.updated > dU) then none
  else if e.2.tooLarge then some .tooLarge
  else if decide (e.2.started < dS) then some .tooOld
  else some (finishTree (nf e.1) e.2)

def Fate.isBlacklisted : Fate → Bool
  | .tooLarge => true
  | .tooOld => true
  | _ => false

def Fate.isTooLarge : Fate → Bool
  | .tooLarge => true
  | _ => false

def Fate.isTooOld : Fate → Bool
  | .tooOld => true
  | _ => false

def Fate.isNoRoot : Fate → Bool
  | .noRoot => true
  | _ => false

def Fate.isEmitted : Fate → Bool
  | .emitted _ => true
  | _ => false

def Fate.isDiscarded : Fate → Bool
  | .discarded => true
  | _ => false

theorem finishTree_cases (nf : Time) (t : Tree) :
    (∃ out, finishTree nf t = .emitted out) ∨ finishTree nf t = .noRoot ∨ finishTree nf t = .stuck := by
  unfold finishTree
  dsimp only
  split
  · split
    · exact Or.inl ⟨_, rfl⟩
    · exact Or.inr (Or.inr rfl)
  · exact Or.inr (Or.inl rfl)

/-- Adding the numbers of a removal to the metrics. -/
def Metrics.count (m : Metrics) (t : Tree) (f : Fate) : Metrics :=
  { m with
    tracesFinishedSize := m.tracesFinishedSize ++ [t.nodeCount.toNat]
    tracesTooLarge := m.tracesTooLarge + f.isTooLarge.toNat
    tracesTooOld := m.tracesTooOld + f.isTooOld.toNat
    tracesWithoutRoot := m.tracesWithoutRoot + f.isNoRoot.toNat
    tracesCorrected := m.tracesCorrected + f.isEmitted.toNat
    tracesFinished := m.tracesFinished + f.isEmitted.toNat }

theorem finishOne_eq (dU dS : Time) (nf : Id → Time) (st : Collector × List Removal) (e : Id × Tree) :
    finishOne dU dS nf st e =
      match examine dU dS nf e with
      | none => st
      | some f =>
        ({ traces := st.1.traces.erase e.1
           blacklist := if f.isBlacklisted then st.1.blacklist.insert e.1 () else st.1.blacklist
           metrics := st.1.metrics.count e.2 f }, st.2 ++ [⟨e.1, e.2, f⟩]) := by
  unfold finishOne examine
  dsimp only
  split
  · rfl
  · split
    · rfl
    · split
      · rfl
      · rcases finishTree_cases (nf e.1) e.2 with ⟨out, h⟩ | h | h <;> rw [h] <;> rfl

/-- The removals of the loop. -/
def removals (dU dS : Time) (nf : Id → Time) (order : List (Id × Tree)) : List Removal :=
  order.filterMap fun e => (examine dU dS nf e).map fun f => ⟨e.1, e.2, f⟩

theorem mem_removals {dU dS nf order} {r : Removal} :
    r ∈ removals dU dS nf order ↔ (r.id, r.tree) ∈ order ∧ examine dU dS nf (r.id, r.tree) = some r.fate := by
  unfold removals
  rw [List.mem_filterMap]
  constructor
  · rintro ⟨⟨k, t⟩, h, he⟩
    obtain ⟨f, hf, rfl⟩ := Option.map_eq_some_iff.mp he
    exact ⟨h, hf⟩
  · rintro ⟨h, he⟩
    exact ⟨_, h, by rw [he]; rfl⟩

theorem finishFold_eq (dU dS : Time) (nf : Id → Time) (order : List (Id × Tree)) (st : Collector × List Removal) :
    (order.foldl (finishOne dU dS nf) st).2 = st.2 ++ removals dU dS nf order ∧
    (∀ k, (order.foldl (finishOne dU dS nf) st).1.traces[k]? =
      if (removals dU dS nf order).any (fun r => r.id == k) then none else st.1.traces[k]?) ∧
    (∀ k, (order.foldl (finishOne dU dS nf) st).1.blacklist[k]? =
      if (removals dU dS nf order).any (fun r => r.id == k && r.fate.isBlacklisted) then some ()
      else st.1.blacklist[k]?) ∧
    (order.foldl (finishOne dU dS nf) st).1.metrics =
      (removals dU dS nf order).foldl (fun m r => m.count r.tree r.fate) st.1.metrics := by
  induction order generalizing st with
  | nil => simp [removals]
  | cons e order ih =>
    rw [List.foldl_cons]
    obtain ⟨h1, h2, h3, h4⟩ := ih (finishOne dU dS nf st e)
    rw [h1, h4]
    simp only [h2, h3]
    have hrem : removals dU dS nf (e :: order) = ((examine dU dS nf e).map fun f => (⟨e.1, e.2, f⟩ : Removal)).toList ++
        removals dU dS nf order := by
      unfold removals
      rw [List.filterMap_cons]
      cases examine dU dS nf e <;> rfl
    rw [finishOne_eq, hrem]
    cases he : examine dU dS nf e with
    | none => simp
    | some f =>
      simp only [Option.map_some, Option.toList_some, List.append_assoc, List.cons_append, List.nil_append, List.any_cons,
        List.foldl_cons, true_and]
      refine ⟨?_, ?_, trivial⟩
      · intro k
        rw [get_erase]
        by_cases hk : e.1 = k
        · simp [hk]
        · have : (e.1 == k) = false := by simpa using hk
          simp [hk]
      · intro k
        by_cases hb : f.isBlacklisted = true
        · rw [if_pos hb, get_insert]
          by_cases hk : e.1 = k
          · simp [hk, hb]
          · have : (e.1 == k) = false := by simpa using hk
            simp only [if_neg hk, this, Bool.false_and, Bool.false_or]
        · rw [if_neg hb]
          simp [hb]

/-! ## Counting -/

theorem tooLarge_iff {t : Tree} (h : t.Inv) : t.tooLarge = true ↔ Large t := by
  unfold Tree.tooLarge Large size
  rw [decide_eq_true_eq, gt_iff_lt, UInt16.lt_iff_toNat_lt, h.count]
  exact Iff.rfl

theorem bufferTime_eq (n : Nat) : bufferTime n = Spec.bufferTime n := by
  simp only [bufferTime, bufferConfigs, List.foldl_cons, List.foldl_nil, Spec.bufferTime]
  repeat' split
  all_goals first | rfl | omega

theorem spanCountOf_eq {l : List (Id × Tree)} (h : ∀ e ∈ l, e.2.Inv) : spanCountOf l = counted l := by
  have key : ∀ (l : List (Id × Tree)) (n : Nat), (∀ e ∈ l, e.2.Inv) →
      l.foldl (fun n e => if !e.2.tooLarge then n + e.2.nodeCount.toNat else n) n = n + counted l := by
    intro l
    induction l with
    | nil => intro n _; simp [counted]
    | cons e l ih =>
      intro n h
      rw [List.foldl_cons, ih _ (fun e he => h e (by simp [he]))]
      have hi := h e (by simp)
      have ht := tooLarge_iff hi
      unfold counted
      rw [List.filter_cons]
      by_cases hl : Large e.2
      · simp [ht.mpr hl, hl]
      · have : e.2.tooLarge = false := by
          rw [Bool.eq_false_iff]; exact fun h => hl (ht.mp h)
        simp only [this, Bool.not_false, if_true, hl, decide_false, List.map_cons, List.sum_cons]
        rw [hi.count]; unfold size; omega
  unfold spanCountOf
  rw [key l 0 h, Nat.zero_add]

theorem totalNodes_eq {l : List (Id × Tree)} (h : ∀ e ∈ l, e.2.Inv) : totalNodes l = total l := by
  have key : ∀ (l : List (Id × Tree)) (n : Int), (∀ e ∈ l, e.2.Inv) →
      l.foldl (fun n e => n + (e.2.nodeCount.toNat : Int)) n = n + (total l : Nat) := by
    intro l
    induction l with
    | nil => intro n _; simp [total]
    | cons e l ih =>
      intro n h
      rw [List.foldl_cons, ih _ (fun e he => h e (by simp [he])), (h e (by simp)).count]
      unfold total size
      simp only [List.map_cons, List.sum_cons]
      omega
  unfold totalNodes
  rw [key l 0 h]; omega

theorem total_perm {l l' : List (Id × Tree)} (h : l.Perm l') : total l = total l' := (h.map _).sum_nat
theorem counted_perm {l l' : List (Id × Tree)} (h : l.Perm l') : counted l = counted l' :=
  ((h.filter _).map _).sum_nat

/-! ## Load shedding -/

/-- What the loop of `discardSuspiciousTraces` discards: the shortest prefix after which fewer than the
maximum remain. -/
theorem discardLoop_eq (l : List (Id × Tree)) (n : Int) (c : Collector) (rem : List Removal) (ds dt : Nat) :
    ∃ k, k ≤ l.length ∧
      (discardLoop l n c rem ds dt).2.1 = rem ++ (l.take k).map (fun e => ⟨e.1, e.2, .discarded⟩) ∧
      (∀ id, (discardLoop l n c rem ds dt).1.traces[id]? =
        if (l.take k).any (fun e => e.1 == id) then none else c.traces[id]?) ∧
      (discardLoop l n c rem ds dt).1.blacklist = c.blacklist ∧
      (discardLoop l n c rem ds dt).1.metrics = c.metrics ∧
      ((discardLoop l n c rem ds dt).2.2.1 : Int) = ds + totalNodes (l.take k) ∧
      (discardLoop l n c rem ds dt).2.2.2 = dt + k ∧
      (∀ j < k, (maxSpans : Int) ≤ n - totalNodes (l.take j)) ∧
      (k < l.length → n - totalNodes (l.take k) < maxSpans) := by
  have hcons : ∀ (e : Id × Tree) (l : List (Id × Tree)), totalNodes (e :: l) = e.2.nodeCount.toNat + totalNodes l := by
    intro e l
    have key : ∀ (l : List (Id × Tree)) (n : Int),
      l.foldl (fun n e => n + (e.2.nodeCount.toNat : Int)) n = n + totalNodes l := by
      intro l
      induction l with
      | nil => intro n; simp [totalNodes]
      | cons e l ih =>
        intro n
        unfold totalNodes
        rw [List.foldl_cons, List.foldl_cons, ih, ih]; omega
    unfold totalNodes
    rw [List.foldl_cons, key, key]; omega
  induction l generalizing n c rem ds dt with
  | nil => exact ⟨0, by simp [discardLoop, totalNodes]⟩
  | cons e l ih =>
    obtain ⟨id, t⟩ := e
    by_cases hn : n < maxSpans
    · refine ⟨0, ?_⟩
      simp [discardLoop, hn, totalNodes]
    · obtain ⟨k, hk, h1, h2, h3, h4, h5, h6, h7, h8⟩ := ih (n - t.nodeCount.toNat) { c with traces := c.traces.erase id }
        (rem ++ [⟨id, t, .discarded⟩]) (ds + t.nodeCount.toNat) (dt + 1)
      refine ⟨k + 1, by simp; omega, ?_⟩
      have he : discardLoop ((id, t) :: l) n c rem ds dt =
          discardLoop l (n - t.nodeCount.toNat) { c with traces := c.traces.erase id }
            (rem ++ [⟨id, t, .discarded⟩]) (ds + t.nodeCount.toNat) (dt + 1) := by
        rw [discardLoop, if_neg hn]
      rw [he, List.take_succ_cons]
      refine ⟨?_, ?_, h3, h4, ?_, ?_, ?_, ?_⟩
      · rw [h1]; simp
      · intro a
        rw [h2, get_erase, List.any_cons]
        by_cases ha : id = a
        · simp [ha]
        · have : (id == a) = false := by simpa using ha
          rw [if_neg ha, this, Bool.false_or]
      · rw [h5, hcons]; push_cast; omega
      · rw [h6]; omega
      · intro j hj
        cases j with
        | zero => simp [totalNodes]; omega
        | succ j =>
          rw [List.take_succ_cons, hcons]
          have := h7 j (by omega)
          simp only; omega
      · intro hk
        rw [hcons]
        have := h8 (by simp at hk; omega)
        simp only; omega

/-! ## The blacklist -/

theorem trimBlacklist_get (l : List (Id × Unit)) (bl : Std.ExtTreeMap Id Unit) (k : Id) (h : (trimBlacklist l bl)[k]? = some ()) :
    bl[k]? = some () := by
  induction l generalizing bl with
  | nil => exact h
  | cons e l ih =>
    obtain ⟨id, u⟩ := e
    rw [trimBlacklist] at h
    split at h
    · exact h
    · have := ih _ h
      rw [get_erase] at this
      split at this
      · contradiction
      · exact this

theorem size_erase_of_mem {m : Std.ExtTreeMap Id Unit} {k : Id} (h : m[k]? = some ()) :
    (m.erase k).size + 1 = m.size := by
  have := (toList_erase_perm h).length_eq
  rw [List.length_cons, Std.ExtTreeMap.length_toList, Std.ExtTreeMap.length_toList] at this
  omega

theorem trimBlacklist_size {l : List (Id × Unit)} {bl : Std.ExtTreeMap Id Unit} (h : IsRange l bl) :
    (trimBlacklist l bl).size ≤ 1023 ∧ (bl.size ≤ 1023 → trimBlacklist l bl = bl) := by
  have key : ∀ (l : List (Id × Unit)) (bl : Std.ExtTreeMap Id Unit), (l.map Prod.fst).Nodup →
      (∀ e ∈ l, bl[e.1]? = some ()) → bl.size ≤ l.length + 1023 → (trimBlacklist l bl).size ≤ 1023 := by
    intro l
    induction l with
    | nil => intro bl _ _ h; simpa [trimBlacklist] using h
    | cons e l ih =>
      intro bl hn hm hs
      obtain ⟨id, u⟩ := e
      rw [trimBlacklist]
      split
      · omega
      · rw [List.map_cons, List.nodup_cons] at hn
        apply ih _ hn.2
        · intro x hx
          rw [get_erase, if_neg]
          · exact hm x (by simp [hx])
          · intro he; exact hn.1 (by rw [he]; exact List.mem_map_of_mem hx)
        · have := size_erase_of_mem (hm (id, u) (by simp))
          simp only [List.length_cons] at hs this
          omega
  constructor
  · apply key l bl (range_keys_nodup h)
    · rintro ⟨k, u⟩ he
      have := (mem_range h).mp he
      simpa using this
    · have := h.length_eq
      rw [Std.ExtTreeMap.length_toList] at this
      omega
  · intro hs
    cases l with
    | nil => rfl
    | cons e l =>
      obtain ⟨id, u⟩ := e
      rw [trimBlacklist, if_pos (by omega)]

end Verif
