import Verif.Model.CollectorCost
import Verif.Props.Collector

/-!
# C99: what a span and a tick cost the collector
-/

namespace Verif

open Spec

/-! ## A span -/

theorem sortSearchSteps_le (f : Nat → Bool) (k : Nat) : ∀ i j, j - i < 2 ^ k → sortSearchSteps f i j ≤ k := by
  induction k with
  | zero =>
    intro i j h
    rw [sortSearchSteps, dif_neg (by simp at h; omega)]
    exact Nat.le_refl _
  | succ k ih =>
    intro i j h
    rw [Nat.pow_succ] at h
    rw [sortSearchSteps]
    by_cases hij : i < j
    · rw [dif_pos hij]
      dsimp only
      by_cases hf : (!f ((i + j) / 2)) = true
      · rw [if_pos hf]
        have := ih ((i + j) / 2 + 1) j (by omega)
        omega
      · rw [if_neg hf]
        have := ih i ((i + j) / 2) (by omega)
        omega
    · rw [dif_neg hij]; omega

theorem sortSearchSteps_log (f : Nat → Bool) (n : Nat) : sortSearchSteps f 0 n ≤ Nat.log2 n + 1 :=
  sortSearchSteps_le f _ 0 n (by rw [Nat.sub_zero]; exact Nat.lt_log2_self)

theorem log2_succ_le (n : Nat) : Nat.log2 n + 1 ≤ n + 1 := by
  have := @Nat.log2_le_self n
  omega

theorem addSpanSteps_new {t : Tree} {s : Span} (h : getSpanRef t.spans s.id = none) :
    t.addSpanSteps s = getSpanRefSteps t.spans s.id + spansAppendSteps t.spans s := by
  unfold Tree.addSpanSteps
  rw [h]

theorem addSpanSteps_old {t : Tree} {s q : Span} {i : Nat} (h : getSpanRef t.spans s.id = some i) (hq : t.spans[i]? = some q) :
    t.addSpanSteps s = getSpanRefSteps t.spans s.id + mergeSpansSteps q s := by
  unfold Tree.addSpanSteps
  rw [h]
  dsimp only
  rw [hq]

theorem mergeSpansSteps_le (q s : Span) : mergeSpansSteps q s ≤ 1 + ((tagsList s.tags).length + (tagsList q.tags).length) := by
  unfold mergeSpansSteps
  split
  · exact Nat.add_le_add_left (Nat.le_add_right _ _) _
  · exact Nat.le_refl _

/-- Looking up a span takes logarithmic time; a new one is inserted in linear time; merging takes time for the tags. -/
theorem C99_add (t : Tree) (s : Span) :
    ((∀ q ∈ t.spans, q.id ≠ s.id) → t.Inv → t.addSpanSteps s ≤ 2 * Nat.log2 t.spans.length + 2 * t.spans.length + 4) ∧
    (∀ q ∈ t.spans, q.id = s.id → t.Inv →
      t.addSpanSteps s ≤ Nat.log2 t.spans.length + (tagsList s.tags).length + (tagsList q.tags).length + 3) := by
  have hl := sortSearchSteps_log (idAtLeast t.spans s.id) t.spans.length
  constructor
  · intro hn hinv
    rw [addSpanSteps_new ((getSpanRef_eq_none hinv.sorted).mpr hn)]
    unfold getSpanRefSteps spansAppendSteps
    omega
  · intro q hq he hinv
    obtain ⟨i, hi⟩ := List.getElem?_of_mem hq
    have hm := mergeSpansSteps_le q s
    rw [addSpanSteps_old ((getSpanRef_eq_some hinv.sorted).mpr ⟨q, hi, he⟩) hi]
    unfold getSpanRefSteps
    omega

/-! ## Timing correction -/

theorem correctSteps_fold (fuel node : Nat) (off : Duration) (n : Nat)
    (ih : ∀ (st : CorrectState) (i : Nat) (p : Option Nat) (off : Duration) (st' : CorrectState), correctTree fuel st i p off = some st' →
      st.spans.length = n → st'.spans.length = n ∧ correctSteps fuel st i p off + st.visits.length * (n + 1) = st'.visits.length * (n + 1)) :
    ∀ (cs : List Nat) (st st' : CorrectState) (k : Nat), cs.foldlM (fun st child => correctTree fuel st child (some node) off) st = some st' →
      st.spans.length = n → st'.spans.length = n ∧
        (cs.foldl (fun (x : Option CorrectState × Nat) child =>
          match x.1 with
          | none => x
          | some st => (correctTree fuel st child (some node) off, x.2 + correctSteps fuel st child (some node) off)) (some st, k)).2 +
          st.visits.length * (n + 1) = k + st'.visits.length * (n + 1) := by
  intro cs
  induction cs with
  | nil =>
    intro st st' k h hn
    cases h
    exact ⟨hn, rfl⟩
  | cons c cs ihc =>
    intro st st' k h hn
    rw [List.foldlM_cons] at h
    cases h1 : correctTree fuel st c (some node) off with
    | none => rw [h1] at h; cases h
    | some st1 =>
      rw [h1] at h
      obtain ⟨a1, a2⟩ := ih st c (some node) off st1 h1 hn
      obtain ⟨b1, b2⟩ := ihc st1 st' (k + correctSteps fuel st c (some node) off) h a1
      refine ⟨b1, ?_⟩
      rw [List.foldl_cons]
      dsimp only
      rw [h1]
      omega

/-- Each call takes one step for each span of the trace. -/
theorem correctSteps_eq (fuel : Nat) : ∀ (n : Nat) (st : CorrectState) (i : Nat) (p : Option Nat) (off : Duration) (st' : CorrectState),
    correctTree fuel st i p off = some st' → st.spans.length = n →
    st'.spans.length = n ∧ correctSteps fuel st i p off + st.visits.length * (n + 1) = st'.visits.length * (n + 1) := by
  induction fuel with
  | zero => intro n st i p off st' h; cases h
  | succ fuel ih =>
    intro n st i p off st' h hn
    rw [correctTree] at h
    rw [correctSteps]
    cases hs : st.spans[i]? with
    | none =>
      rw [hs] at h
      cases h
      exact ⟨hn, Nat.zero_add _⟩
    | some s =>
      rw [hs] at h
      dsimp only at h ⊢
      obtain ⟨h1, h2⟩ := correctSteps_fold fuel i _ n (ih n) _ _ st' 0 h (by rw [List.length_set]; exact hn)
      refine ⟨h1, ?_⟩
      rw [List.length_cons, Nat.succ_mul] at h2
      have hl : childrenOfSteps (st.spans.set i (correctNode s (p.bind fun p => (st.spans[p]?).map (·.timestamp)) off).1) = n := by
        unfold childrenOfSteps; rw [List.length_set, hn]
      rw [hl]
      rw [Nat.zero_add] at h2
      exact (by omega : ∀ a b c d : Nat, a + (b + (d + 1)) = c → 1 + d + a + b = c) _ _ _ _ h2

/-- Timing correction looks at all spans of the trace for each span that it reaches, and at each span only once: the product, plus one for each call. -/
theorem C99_correct {spans : List Span} (hs : SortedDesc spans) {i : Nat} (hi : i ∈ roots spans) :
    ∃ r, spans[i]? = some r ∧ ∃ visits : List Nat, visits.Nodup ∧ (∀ j, j ∈ visits ↔ ∃ s anc, spans[j]? = some s ∧ Path spans r anc s) ∧
      visits.length ≤ spans.length ∧ correctSteps spans.length { spans := spans } i none 0 = visits.length * (spans.length + 1) := by
  obtain ⟨r, st', hr, _, hrun, hnd, hmem, _, _⟩ := correct_full hs hi
  refine ⟨r, hr, st'.visits, hnd, hmem, ?_, ?_⟩
  · have hsub : st'.visits ⊆ List.range spans.length := by
      intro j hj
      obtain ⟨s, _, hj', _⟩ := (hmem j).mp hj
      exact List.mem_range.mpr (List.getElem?_eq_some_iff.mp hj').1
    have := List.Nodup.length_le_of_subset hnd hsub
    rwa [List.length_range] at this
  · have := (correctSteps_eq spans.length spans.length { spans := spans } i none 0 st' (hrun _ (Nat.le_refl _)) rfl).2
    simpa using this

/-- A span whose parent is the one before it. -/
def chainSpan (k : Nat) : Span := { id := Int64.ofNat (k + 1), parent := Int64.ofNat (if k = 0 then 1 else k), trace := 1 }

/-- A trace in which each span is the child of the one before. -/
def chain (n : Nat) : List Span := (List.range n).reverse.map chainSpan

theorem mem_chain {n : Nat} {s : Span} : s ∈ chain n ↔ ∃ k < n, chainSpan k = s := by
  unfold chain
  simp only [List.mem_map, List.mem_reverse, List.mem_range]

theorem toInt_ofNat_small {k : Nat} (h : k < 2 ^ 63) : (Int64.ofNat k).toInt = k := by
  rw [Int64.toInt_ofNat_of_lt h]

theorem chain_path (n : Nat) (hn : n < 2 ^ 63) : ∀ k < n, ∃ anc, Path (chain n) (chainSpan 0) anc (chainSpan k) := by
  intro k
  induction k with
  | zero => intro _; exact ⟨[], Path.root⟩
  | succ k ih =>
    intro hk
    obtain ⟨anc, h⟩ := ih (by omega)
    refine ⟨_, Path.child h (mem_chain.mpr ⟨k + 1, hk, rfl⟩) rfl ?_⟩
    intro he
    have := congrArg Int64.toInt (show Int64.ofNat (k + 1) = Int64.ofNat (k + 1 + 1) from he)
    rw [toInt_ofNat_small (by omega), toInt_ofNat_small (by omega)] at this
    omega

theorem chain_sorted (n : Nat) (hn : n < 2 ^ 63) : SortedDesc (chain n) := by
  unfold SortedDesc chain
  rw [List.pairwise_map, List.pairwise_reverse]
  refine List.Pairwise.imp_of_mem ?_ List.pairwise_lt_range
  intro a b ha hb hab
  rw [List.mem_range] at ha hb
  show Int64.ofNat (a + 1) < Int64.ofNat (b + 1)
  rw [Int64.lt_iff_toInt_lt, toInt_ofNat_small (by omega), toInt_ofNat_small (by omega)]
  omega

/-- For some traces the time is quadratic: a trace of `n` spans, each of them the child of the one before, takes `n * (n + 1)` steps. -/
theorem C99_chain (n : Nat) (h0 : 0 < n) (hn : n < 2 ^ 63) :
    ∃ i ∈ roots (chain n), correctSteps n { spans := chain n } i none 0 = n * (n + 1) := by
  have hlen : (chain n).length = n := by unfold chain; simp
  obtain ⟨i, hi⟩ := List.getElem?_of_mem (mem_chain.mpr ⟨0, h0, rfl⟩)
  have hroot : i ∈ roots (chain n) := mem_roots.mpr ⟨_, hi, mem_chain.mpr ⟨0, h0, rfl⟩, .inl rfl⟩
  obtain ⟨r, hr, visits, hnd, hmem, hle, he⟩ := C99_correct (chain_sorted n hn) hroot
  rw [hi] at hr
  cases hr
  rw [hlen] at he hle
  refine ⟨i, hroot, ?_⟩
  have hsub : List.range n ⊆ visits := by
    intro j hj
    rw [List.mem_range, ← hlen] at hj
    refine (hmem j).mpr ⟨(chain n)[j], ?_⟩
    obtain ⟨k, hk, hks⟩ := mem_chain.mp (List.getElem_mem hj)
    obtain ⟨anc, hp⟩ := chain_path n hn k hk
    exact ⟨anc, List.getElem?_eq_getElem hj, by rw [← hks]; exact hp⟩
  have := List.Nodup.length_le_of_subset List.nodup_range hsub
  rw [List.length_range] at this
  rw [he, show visits.length = n by omega]

/-! ## A trace -/

theorem sameParentSteps_le (p : Id) (l : List Span) : sameParentSteps p l ≤ l.length := by
  induction l with
  | nil => exact Nat.le_refl _
  | cons s l ih =>
    rw [sameParentSteps, List.length_cons]
    split <;> omega

theorem pick_length_le (l : List Span) : (pick l (roots l)).length ≤ l.length := by
  have h1 : (pick l (roots l)).length ≤ (roots l).length := List.length_filterMap_le _ _
  have h2 : (roots l).length ≤ (List.range l.length).length := List.length_filter_le _ _
  rw [List.length_range] at h2
  omega

theorem withFakeRootSteps_le {t : Tree} (nf : Time) (h : t.Ok) :
    (withFakeRoot nf t).spans.length ≤ t.spans.length + 1 ∧ withFakeRootSteps nf t ≤ 10 * t.spans.length + 8 := by
  have hlen := pick_length_le t.spans
  have hlog := @Nat.log2_le_self t.spans.length
  unfold withFakeRoot withFakeRootSteps
  match hp : pick t.spans (roots t.spans), hlen with
  | [], _ => dsimp only; unfold rootsSteps; omega
  | [_], _ => dsimp only; unfold rootsSteps; omega
  | first :: second :: rest, hlen =>
    dsimp only
    by_cases hall : allTheSameParent (first :: second :: rest) = true
    · rw [if_pos hall, if_pos hall]
      have hmany : 1 < (roots t.spans).length := by
        rw [← pick_roots_cases, hp]; simp
      obtain ⟨c1, c2, _, _, _, c6, _⟩ := C38_fake_root_partial t nf h.inv h.trace first (second :: rest) hp hmany hall
      have ha := (C99_add t (createFakeRoot first (second :: rest))).1 (by rw [c6]; exact c1) h.inv
      have hl := c2.length_eq
      rw [List.length_cons] at hl
      have hs := sameParentSteps_le first.parent (first :: second :: rest)
      unfold rootsSteps
      rw [hl]
      simp only [List.length_cons] at hlen hs ⊢
      refine ⟨Nat.le_refl _, ?_⟩
      show 1 + t.spans.length + t.spans.length + (_ + (rest.length + 1 + _ + (1 + (t.spans.length + 1) + (t.spans.length + 1)))) ≤ _
      omega
    · rw [if_neg hall, if_neg hall]
      have hs := sameParentSteps_le first.parent (first :: second :: rest)
      unfold rootsSteps
      refine ⟨Nat.le_succ _, ?_⟩
      show 1 + t.spans.length + t.spans.length + (_ + 0) ≤ _
      omega

/-- Finishing a trace takes time that is quadratic in the number of its spans at most. -/
theorem C99_finish {t : Tree} (nf : Time) (h : t.Ok) :
    finishTreeSteps nf t ≤ t.spans.length * t.spans.length + 13 * t.spans.length + 10 := by
  obtain ⟨h1, h2⟩ := withFakeRootSteps_le nf h
  obtain ⟨hinv, _, _⟩ := withFakeRoot_spec nf h
  have key : (match roots (withFakeRoot nf t).spans with
      | [r] => correctSteps (withFakeRoot nf t).spans.length { spans := (withFakeRoot nf t).spans } r none 0
      | _ => 0) ≤ (t.spans.length + 1) * (t.spans.length + 2) := by
    split
    · next r hr =>
      obtain ⟨_, _, visits, _, _, hv, he⟩ := C99_correct hinv.sorted (show r ∈ roots (withFakeRoot nf t).spans by rw [hr]; simp)
      rw [he]
      exact Nat.mul_le_mul (by omega) (by omega)
    · exact Nat.zero_le _
  have e : (t.spans.length + 1) * (t.spans.length + 2) = t.spans.length * t.spans.length + 3 * t.spans.length + 2 := by
    rw [Nat.add_mul, Nat.mul_add]; omega
  refine Nat.le_trans (Nat.add_le_add h2 key) ?_
  omega

/-! ## A tick -/

theorem discardSteps_le (l : List (Id × Tree)) : ∀ n, discardSteps l n ≤ l.length := by
  induction l with
  | nil => intro n; exact Nat.le_refl _
  | cons e l ih =>
    intro n
    obtain ⟨id, t⟩ := e
    rw [discardSteps, List.length_cons]
    have := ih (n - t.nodeCount.toNat)
    split <;> omega

theorem trimSteps_le (l : List (Id × Unit)) : ∀ bl, trimSteps l bl ≤ l.length := by
  induction l with
  | nil => intro n; exact Nat.le_refl _
  | cons e l ih =>
    intro bl
    obtain ⟨id, t⟩ := e
    rw [trimSteps, List.length_cons]
    have := ih (bl.erase id)
    split <;> omega

theorem finishOne_sizes (du ds : Time) (nf : Id → Time) (st : Collector × List Removal) (e : Id × Tree) :
    (finishOne du ds nf st e).1.traces.size ≤ st.1.traces.size ∧ (finishOne du ds nf st e).1.blacklist.size ≤ st.1.blacklist.size + 1 := by
  have h1 : (st.1.traces.erase e.1).size ≤ st.1.traces.size := Std.ExtTreeMap.size_erase_le
  have h2 : (st.1.blacklist.insert e.1 ()).size ≤ st.1.blacklist.size + 1 := Std.ExtTreeMap.size_insert_le
  unfold finishOne
  dsimp only
  split
  · exact ⟨Nat.le_refl _, Nat.le_succ _⟩
  split
  · exact ⟨h1, h2⟩
  split
  · exact ⟨h1, h2⟩
  split
  · exact ⟨h1, Nat.le_succ _⟩
  · exact ⟨h1, Nat.le_succ _⟩
  · exact ⟨h1, Nat.le_succ _⟩

theorem finishFold_sizes (du ds : Time) (nf : Id → Time) (l : List (Id × Tree)) : ∀ st : Collector × List Removal,
    (l.foldl (finishOne du ds nf) st).1.traces.size ≤ st.1.traces.size ∧
    (l.foldl (finishOne du ds nf) st).1.blacklist.size ≤ st.1.blacklist.size + l.length := by
  induction l with
  | nil => intro st; exact ⟨Nat.le_refl _, Nat.le_refl _⟩
  | cons e l ih =>
    intro st
    obtain ⟨a, b⟩ := finishOne_sizes du ds nf st e
    obtain ⟨c, d⟩ := ih (finishOne du ds nf st e)
    rw [List.foldl_cons, List.length_cons]
    omega

/-- The number of spans held. -/
def heldSpans (c : Collector) : Nat := (c.traces.toList.map fun e => e.2.spans.length).sum

theorem sum_le_sum {α : Type} (l : List α) (f g : α → Nat) (h : ∀ a ∈ l, f a ≤ g a) : (l.map f).sum ≤ (l.map g).sum := by
  induction l with
  | nil => exact Nat.le_refl _
  | cons a l ih =>
    rw [List.map_cons, List.map_cons, List.sum_cons, List.sum_cons]
    have := h a (by simp)
    have := ih (fun b hb => h b (by simp [hb]))
    omega

theorem sum_mul_const {α : Type} (l : List α) (f : α → Nat) (k : Nat) : (l.map fun a => k * f a).sum = k * (l.map f).sum := by
  induction l with
  | nil => rfl
  | cons a l ih => rw [List.map_cons, List.map_cons, List.sum_cons, List.sum_cons, ih, Nat.mul_add]

theorem length_le_sum {α : Type} (l : List α) (f : α → Nat) (h : ∀ a ∈ l, 1 ≤ f a) : l.length ≤ (l.map f).sum := by
  have := sum_le_sum l (fun _ => 1) f h
  rwa [List.map_const', List.sum_replicate_nat, Nat.mul_one] at this

/-- A tick takes time at most proportional to the number of spans held, if no trace has so many that its counter wraps around. -/
theorem C99_tick {w : World} (hw : Reachable w) {i : TickInput} (hv : i.Valid w.c)
    (hsmall : ∀ (k : Id) (t : Tree), w.c.traces[k]? = some t → t.spans.length < 65536) :
    w.c.tickSteps i ≤ 8221 * heldSpans w.c + 1030 := by
  have hinv := reachable_inv hw
  have hmem : ∀ e ∈ i.order, w.c.traces[e.1]? = some e.2 := by
    intro e he
    have := hv.order.mem_iff.mp he
    exact Std.ExtTreeMap.mem_toList_iff_getElem?_eq_some.mp this
  have hlen : i.order.length = w.c.traces.size := by rw [hv.order.length_eq, Std.ExtTreeMap.length_toList]
  have hspans : (i.order.map fun e => e.2.spans.length).sum = heldSpans w.c := (hv.order.map _).sum_nat
  have hpos : ∀ e ∈ i.order, 1 ≤ e.2.spans.length := by
    intro e he
    have ok := hinv.trees e.1 e.2 (hmem e he)
    exact List.length_pos_iff.mpr ok.spans_ne
  have hT : w.c.traces.size ≤ heldSpans w.c := by
    rw [← hlen, ← hspans]
    exact length_le_sum _ _ hpos
  have hone : ∀ e ∈ i.order, finishOneSteps (i.now1 - bufferTime (spanCountOf w.c.traces.toList)) (i.now2 - 5 * bufferTime (spanCountOf w.c.traces.toList))
      i.nowFake e ≤ 8216 * e.2.spans.length := by
    intro e he
    have ok := hinv.trees e.1 e.2 (hmem e he)
    have hp := hpos e he
    have hf := C99_finish (i.nowFake e.1) ok.ok
    unfold finishOneSteps
    dsimp only
    by_cases hl : e.2.tooLarge = true
    · rw [hl]
      simp only [Bool.not_true, Bool.false_and, Bool.false_eq_true, if_false, if_true]
      omega
    · have hn : e.2.spans.length ≤ 8192 := by
        have h1 := hsmall e.1 e.2 (hmem e he)
        have h2 : ¬ Large e.2 := fun h => hl ((tooLarge_iff ok.inv).mpr h)
        unfold Large size at h2
        omega
      have hq : e.2.spans.length * e.2.spans.length ≤ 8192 * e.2.spans.length := Nat.mul_le_mul_right _ hn
      rw [Bool.not_eq_true] at hl
      rw [hl]
      simp only [Bool.not_false, Bool.true_and, Bool.false_eq_true, if_false]
      split
      · omega
      split
      · omega
      show 1 + _ ≤ _
      omega
  have hsum := sum_le_sum _ _ _ hone
  rw [sum_mul_const, hspans] at hsum
  obtain ⟨hs1, hs2⟩ := finishFold_sizes (i.now1 - bufferTime (spanCountOf w.c.traces.toList)) (i.now2 - 5 * bufferTime (spanCountOf w.c.traces.toList))
    i.nowFake i.order (w.c, [])
  have hb := hinv.blacklist
  have hsz : (w.c.finishLoop i).1.traces.size ≤ w.c.traces.size := hs1
  have hbl : (w.c.shed i).1.blacklist.size ≤ 1023 + w.c.traces.size := by
    obtain ⟨_, _, _, _, e, _⟩ := shed_eq w.c i
    rw [e]
    have : (w.c.finishLoop i).1.blacklist.size ≤ w.c.blacklist.size + i.order.length := hs2
    omega
  have hsorted : i.sorted.length = (w.c.finishLoop i).1.traces.size := by rw [hv.sorted.length_eq, Std.ExtTreeMap.length_toList]
  have hblo : i.blOrder.length = (w.c.shed i).1.blacklist.size := by rw [hv.blOrder.length_eq, Std.ExtTreeMap.length_toList]
  have ht := trimSteps_le i.blOrder (w.c.shed i).1.blacklist
  have hd : discardSuspiciousSteps i.sorted (w.c.finishLoop i).1 ≤ 1 + 2 * w.c.traces.size := by
    have := discardSteps_le i.sorted (totalNodes (w.c.finishLoop i).1.traces.toList)
    unfold discardSuspiciousSteps
    dsimp only
    split <;> omega
  unfold Collector.tickSteps
  dsimp only
  have hc : bufferConfigs.length = 4 := rfl
  rw [hc]
  split <;> omega

/-- Receiving a span takes time at most linear in the number of spans of its trace, and in the number of the tags. -/
theorem C99_receive {w : World} (hw : Reachable w) (now1 : Time) (s : Span) :
    ∃ n tags, w.c.receiveSteps now1 s ≤ 2 * n + 2 * Nat.log2 n + (tagsList s.tags).length + tags + 5 ∧
      ((n = 0 ∧ tags = 0) ∨ ∃ t, w.c.traces[s.trace]? = some t ∧ n = t.spans.length ∧
        (tags = 0 ∨ ∃ q ∈ t.spans, q.id = s.id ∧ tags = (tagsList q.tags).length)) := by
  have hinv := reachable_inv hw
  unfold Collector.receiveSteps
  by_cases h1 : s.trace = 0 ∨ s.id = 0
  · rw [if_pos h1]; exact ⟨0, 0, by omega, .inl ⟨rfl, rfl⟩⟩
  rw [if_neg h1]
  by_cases h2 : w.c.blacklist.contains s.trace = true
  · rw [if_pos h2]; exact ⟨0, 0, by omega, .inl ⟨rfl, rfl⟩⟩
  rw [if_neg h2]
  cases ht : w.c.traces[s.trace]? with
  | none =>
    refine ⟨0, 0, ?_, .inl ⟨rfl, rfl⟩⟩
    have := (C99_add (newTree now1 s.trace) s).1 (fun q hq => by cases hq) (newTree_inv _ _)
    have hz : (newTree now1 s.trace).spans.length = 0 := rfl
    rw [hz] at this
    rw [Option.getD_none]
    omega
  | some t =>
    have ok := hinv.trees _ t ht
    rw [Option.getD_some]
    by_cases hq : ∃ q ∈ t.spans, q.id = s.id
    · obtain ⟨q, hq, he⟩ := hq
      refine ⟨t.spans.length, (tagsList q.tags).length, ?_, .inr ⟨t, rfl, rfl, .inr ⟨q, hq, he, rfl⟩⟩⟩
      have := (C99_add t s).2 q hq he ok.inv
      omega
    · refine ⟨t.spans.length, 0, ?_, .inr ⟨t, rfl, rfl, .inl rfl⟩⟩
      have := (C99_add t s).1 (fun q hq' he => hq ⟨q, hq', he⟩) ok.inv
      omega

/-- A case: a trace of five spans in a chain takes thirty steps, one of two levels as well; of a trace with spans that are not below the root less. -/
example : correctSteps 5 { spans := chain 5 } 4 none 0 = 30 := by decide +kernel

example : correctSteps 3 { spans := [{ id := 7, parent := 6 }, { id := 2, parent := 1 }, { id := 1, parent := 1 }] } 2 none 0 = 8 := by decide +kernel

example : ∃ w : World, Reachable w ∧ heldSpans w.c = 2 ∧ ∀ (k : Id) (t : Tree), w.c.traces[k]? = some t → t.spans.length < 65536 := by
  refine ⟨(({ clock := 0 } : World).receive 1 1 { id := 1, trace := 5 }).receive 2 2 { id := 2, trace := 5, parent := 1 },
    Reachable.receive 2 2 _ (Reachable.receive 1 1 _ (Reachable.init 0) (by decide) (by decide)) (by decide) (by decide), by decide +kernel, ?_⟩
  intro k t h
  have h : (k, t) ∈ _ := Std.ExtTreeMap.mem_toList_iff_getElem?_eq_some.mpr h
  have key : ∀ e ∈ ((({ clock := 0 } : World).receive 1 1 { id := 1, trace := 5 }).receive 2 2 { id := 2, trace := 5, parent := 1 }).c.traces.toList,
      e.2.spans.length < 65536 := by decide +kernel
  exact key _ h

end Verif
