import Verif.Proofs.World

/-!
# What a tick does, in terms of the specification
-/

namespace Verif

open Spec Std

theorem WInv.inv {w : World} (h : WInv w) : ∀ e ∈ w.c.traces.toList, e.2.Inv := by
  rintro ⟨k, t⟩ he
  exact (h.trees k t ((mem_range (isRange_refl _)).mp he)).inv

theorem WInv.bt {w : World} (h : WInv w) :
    bufferTime (spanCountOf w.c.traces.toList) = Spec.bufferTime (counted w.c.traces.toList) := by
  rw [bufferTime_eq, spanCountOf_eq h.inv]

/-- `examine` in terms of the specification. -/
theorem examine_spec {clock k t} (h : TreeOk clock k t) (now1 now2 bt : Time) (nf : Id → Time) (f : Fate) :
    examine (now1 - bt) (now2 - 5 * bt) nf (k, t) = some f ↔
      (Large t ∧ f = .tooLarge) ∨ (¬ Large t ∧ Old now2 bt t ∧ f = .tooOld) ∨
      (¬ Large t ∧ ¬ Old now2 bt t ∧ Idle now1 bt t ∧ f = finishTree (nf k) t) := by
  have hl := tooLarge_iff h.inv
  unfold examine Old Idle
  by_cases h1 : Large t
  · simp [hl.mpr h1, h1, eq_comm]
  · have : t.tooLarge = false := by
      cases hx : t.tooLarge with
      | false => rfl
      | true => exact absurd (hl.mp hx) h1
    simp only [this, h1]
    by_cases h2 : t.started < now2 - 5 * bt
    · simp [h2, eq_comm]
    · by_cases h3 : t.updated > now1 - bt
      · have : ¬ t.updated ≤ now1 - bt := Int.not_le.mpr h3
        simp [h2, h3, this]
      · have : t.updated ≤ now1 - bt := Int.not_lt.mp h3
        simp [h2, this, eq_comm]

theorem examine_none {clock k t} (h : TreeOk clock k t) (now1 now2 bt : Time) (nf : Id → Time) :
    examine (now1 - bt) (now2 - 5 * bt) nf (k, t) = none ↔
      ¬ Large t ∧ ¬ Old now2 bt t ∧ ¬ Idle now1 bt t := by
  have hs := examine_spec h now1 now2 bt nf
  constructor
  · intro he
    rw [he] at hs
    by_cases h1 : Large t
    · exact absurd ((hs .tooLarge).mpr (Or.inl ⟨h1, rfl⟩)) (by simp)
    · by_cases h2 : Old now2 bt t
      · exact absurd ((hs .tooOld).mpr (Or.inr (Or.inl ⟨h1, h2, rfl⟩))) (by simp)
      · by_cases h3 : Idle now1 bt t
        · exact absurd ((hs _).mpr (Or.inr (Or.inr ⟨h1, h2, h3, rfl⟩))) (by simp)
        · exact ⟨h1, h2, h3⟩
  · rintro ⟨h1, h2, h3⟩
    cases he : examine (now1 - bt) (now2 - 5 * bt) nf (k, t) with
    | none => rfl
    | some f =>
      rcases (hs f).mp he with h | h | h
      · exact absurd h.1 h1
      · exact absurd h.2.1 h2
      · exact absurd h.2.2.1 h3

theorem finishTree_ne {clock k t} (h : TreeOk clock k t) (nf : Time) :
    finishTree nf t ≠ .tooLarge ∧ finishTree nf t ≠ .tooOld ∧ finishTree nf t ≠ .discarded ∧ finishTree nf t ≠ .stuck := by
  rcases finishTree_spec nf h.ok with ⟨out, h, _⟩ | ⟨h, _⟩ <;> rw [h] <;> simp

/-- The fates of the traces in a tick. -/
structure Fates (bt : Time) (i : TickInput) (l : List Removal) (id : Id) (t : Tree) : Prop where
  tooLarge : ⟨id, t, .tooLarge⟩ ∈ l ↔ Large t
  tooOld : ⟨id, t, .tooOld⟩ ∈ l ↔ ¬ Large t ∧ Old i.now2 bt t
  noRoot : ⟨id, t, .noRoot⟩ ∈ l ↔ ¬ Large t ∧ ¬ Old i.now2 bt t ∧ Idle i.now1 bt t ∧ ¬ Rooted id t.spans
  emitted : (∃ out, ⟨id, t, .emitted out⟩ ∈ l) ↔
    ¬ Large t ∧ ¬ Old i.now2 bt t ∧ Idle i.now1 bt t ∧ Rooted id t.spans
  output : ∀ out, ⟨id, t, .emitted out⟩ ∈ l → Finished id t.spans out
  discarded : ⟨id, t, .discarded⟩ ∈ l → ¬ Large t ∧ ¬ Old i.now2 bt t ∧ ¬ Idle i.now1 bt t
  stuck : ⟨id, t, .stuck⟩ ∉ l

theorem tick_fates {w : World} (h : WInv w) {i : TickInput} (hv : i.Valid w.c) {id : Id} {t : Tree}
    (ht : w.c.traces[id]? = some t) :
    Fates (Spec.bufferTime (counted w.c.traces.toList)) i (w.c.tick i).2 id t ∧
    ((w.c.tick i).1.traces[id]? = none ↔ ∃ f, ⟨id, t, f⟩ ∈ (w.c.tick i).2) ∧
    ((w.c.tick i).1.traces[id]? = some t ∨ (w.c.tick i).1.traces[id]? = none) ∧
    ((w.c.tick i).1.traces[id]? = some t →
      let bt := Spec.bufferTime (counted w.c.traces.toList)
      ¬ Large t ∧ ¬ Old i.now2 bt t ∧ ¬ Idle i.now1 bt t) := by
  have ok := h.trees id t ht
  obtain ⟨k, hk, hT, htr, hcov, hsorted, hnd, hmem⟩ := tick_eq w.c i hv
  rw [h.bt] at hT hcov hsorted
  generalize Spec.bufferTime (counted w.c.traces.toList) = bt at *
  dsimp only at *
  have hR : ∀ f, (⟨id, t, f⟩ : Removal) ∈ removals (i.now1 - bt) (i.now2 - 5 * bt) i.nowFake i.order ↔
      (Large t ∧ f = .tooLarge) ∨ (¬ Large t ∧ Old i.now2 bt t ∧ f = .tooOld) ∨
      (¬ Large t ∧ ¬ Old i.now2 bt t ∧ Idle i.now1 bt t ∧ f = finishTree (i.nowFake id) t) := by
    intro f
    rw [mem_removals, ← examine_spec ok]
    exact and_iff_right ((mem_range hv.order).mpr ht)
  have hD : ∀ f, (⟨id, t, f⟩ : Removal) ∈ (w.c.tick i).2 ↔
      ((Large t ∧ f = .tooLarge) ∨ (¬ Large t ∧ Old i.now2 bt t ∧ f = .tooOld) ∨
      (¬ Large t ∧ ¬ Old i.now2 bt t ∧ Idle i.now1 bt t ∧ f = finishTree (i.nowFake id) t)) ∨
      ((id, t) ∈ i.sorted.take k ∧ f = .discarded) := by
    intro f
    rw [hT, List.mem_append, hR]
    apply or_congr Iff.rfl
    rw [List.mem_map]
    constructor
    · rintro ⟨e, he, heq⟩; cases heq; exact ⟨he, rfl⟩
    · rintro ⟨he, rfl⟩; exact ⟨_, he, rfl⟩
  obtain ⟨n1, n2, n3, n4⟩ := finishTree_ne ok (i.nowFake id)
  have hfin := finishTree_spec (i.nowFake id) ok.ok
  rw [ok.id] at hfin
  have hstay : (id, t) ∈ i.sorted → ¬ Large t ∧ ¬ Old i.now2 bt t ∧ ¬ Idle i.now1 bt t := by
    intro he
    have hno := (hsorted _ he).2
    refine (examine_none ok i.now1 i.now2 bt i.nowFake).mp ?_
    cases hx : examine (i.now1 - bt) (i.now2 - 5 * bt) i.nowFake (id, t) with
    | none => rfl
    | some f => exact absurd rfl (hno ⟨id, t, f⟩ (mem_removals.mpr ⟨(mem_range hv.order).mpr ht, hx⟩))
  have htr' := htr id
  have hany : ((w.c.tick i).2.any fun r => r.id == id) = true ↔ ∃ f, (⟨id, t, f⟩ : Removal) ∈ (w.c.tick i).2 := by
    rw [List.any_eq_true]
    constructor
    · rintro ⟨⟨id', t', f⟩, hr, he⟩
      have he : id' = id := by simpa using he
      subst he
      have := hmem _ hr
      simp only [ht] at this; cases this
      exact ⟨f, hr⟩
    · rintro ⟨f, hr⟩; exact ⟨_, hr, by simp⟩
  refine ⟨⟨?_, ?_, ?_, ?_, ?_, ?_, ?_⟩, ?_, ?_, ?_⟩
  · rw [hD]; simp [Ne.symm n1]
  · rw [hD]; simp [Ne.symm n2]
  · rw [hD]; simp
    intro _ _ _
    rcases hfin with ⟨out, he, hr, _⟩ | ⟨he, hr⟩ <;> rw [he] <;> simp [hr]
  · simp only [hD]; simp
    intro _ _ _
    rcases hfin with ⟨out, he, hr, _⟩ | ⟨he, hr⟩ <;> rw [he] <;> simp [hr]
  · intro out ho
    rw [hD] at ho; simp at ho
    rcases hfin with ⟨out', he, _, hf⟩ | ⟨he, hr⟩
    · rw [he] at ho; simp at ho; rw [ho.2.2.2]; exact hf
    · rw [he] at ho; simp at ho
  · intro hd
    rw [hD] at hd; simp [Ne.symm n3] at hd
    exact hstay (List.mem_of_mem_take hd)
  · rw [hD]; simp [Ne.symm n4]
  · rw [htr', ← hany]
    split
    · next hx => simp [hx]
    · next hx => simp [hx, ht]
  · rw [htr']; split
    · right; rfl
    · left; exact ht
  · intro hs
    rw [htr'] at hs
    split at hs
    · contradiction
    · next hx =>
      rcases hcov id t ht with ⟨r, hr, he⟩ | hc
      · exfalso; apply hx; rw [List.any_eq_true]
        exact ⟨r, by rw [hT]; exact List.mem_append_left _ hr, by simpa using he⟩
      · exact hstay hc

/-- What remains after a tick, if `k` of the sorted traces were discarded. -/
theorem tick_rest {w : World} (h : WInv w) {i : TickInput} (hv : i.Valid w.c) :
    ∃ k, k ≤ i.sorted.length ∧
      (w.c.tick i).1.traces.toList.Perm (i.sorted.drop k) ∧
      (∀ r : Removal, r ∈ (w.c.tick i).2 ∧ r.fate = .discarded ↔ r ∈ (i.sorted.take k).map (fun e => ⟨e.1, e.2, .discarded⟩)) ∧
      (counted w.c.traces.toList ≤ 100000 → k = 0) ∧
      (∀ j < k, 100000 ≤ total (i.sorted.drop j)) ∧
      (100000 < counted w.c.traces.toList → total (i.sorted.drop k) < 100000) ∧
      (w.c.tick i).1.metrics.spansDiscarded = w.c.metrics.spansDiscarded + total (i.sorted.take k) ∧
      (w.c.tick i).1.metrics.tracesDiscarded = w.c.metrics.tracesDiscarded + total (i.sorted.take k) ∧
      (∀ e ∈ i.sorted, w.c.traces[e.1]? = some e.2) := by
  obtain ⟨f1, f2, f3, f4⟩ := finishLoop_eq w.c i
  obtain ⟨k, hk, s1, s2, s3, ⟨ds, hds, s4⟩, s5, s6, s7⟩ := shed_eq w.c i
  dsimp only at *
  rw [spanCountOf_eq h.inv] at s5 s7
  have hsorted : ∀ e ∈ i.sorted, w.c.traces[e.1]? = some e.2 := by
    rintro ⟨id, t⟩ he
    have := (mem_range hv.sorted).mp he
    rw [f2] at this
    split at this
    · contradiction
    · exact this
  have hinv : ∀ l : List (Id × Tree), (∀ e ∈ l, e ∈ i.sorted) → ∀ e ∈ l, e.2.Inv := by
    intro l hl e he
    exact (h.trees _ _ (hsorted e (hl e he))).inv
  have htot : totalNodes (w.c.finishLoop i).1.traces.toList = total i.sorted := by
    rw [totalNodes_eq, total_perm hv.sorted]
    rintro ⟨id, t⟩ he
    have := (mem_range (isRange_refl _)).mp he
    exact hinv _ (fun _ h => h) _ ((mem_range hv.sorted).mpr this)
  have htake : ∀ j, totalNodes (i.sorted.take j) = total (i.sorted.take j) :=
    fun j => totalNodes_eq (hinv _ (fun e he => List.mem_of_mem_take he))
  have hsplit : ∀ j, total i.sorted = total (i.sorted.take j) + total (i.sorted.drop j) := by
    intro j
    conv => lhs; rw [← List.take_append_drop j i.sorted]
    unfold total
    rw [List.map_append, List.sum_append]
  have hkeys := range_keys_nodup hv.sorted
  have hdisj : ∀ id t, (id, t) ∈ i.sorted → ((id, t) ∈ i.sorted.drop k ↔ ¬ (i.sorted.take k).any (fun e => e.1 == id) = true) := by
    intro id t hm
    have hsplit := List.take_append_drop k i.sorted
    have hk' := hkeys
    rw [← hsplit, List.map_append, List.nodup_append] at hk'
    constructor
    · intro hd ha
      rw [List.any_eq_true] at ha
      obtain ⟨e, he, heq⟩ := ha
      have heq : e.1 = id := by simpa using heq
      exact hk'.2.2 e.1 (List.mem_map_of_mem he) id (List.mem_map_of_mem (f := Prod.fst) hd) heq
    · intro ha
      rw [← hsplit, List.mem_append] at hm
      rcases hm with hm | hm
      · exfalso; apply ha; rw [List.any_eq_true]; exact ⟨_, hm, by simp⟩
      · exact hm
  refine ⟨k, hk, ?_, ?_, fun hc => s5 hc, ?_, ?_, ?_, ?_, hsorted⟩
  · refine List.Perm.symm (range_of_mem_iff ?_ ?_)
    · exact (range_nodup hv.sorted).sublist (List.drop_sublist k _)
    · intro id t
      show _ ↔ (w.c.shed i).1.traces[id]? = some t
      rw [s2]
      constructor
      · intro hd
        have hm := List.mem_of_mem_drop hd
        rw [if_neg ((hdisj id t hm).mp hd)]
        exact (mem_range hv.sorted).mp hm
      · intro hg
        split at hg
        · contradiction
        · next hx =>
          have hm := (mem_range hv.sorted).mpr hg
          exact (hdisj id t hm).mpr hx
  · intro r
    have hT : (w.c.tick i).2 = _ := s1
    rw [hT, List.mem_append]
    constructor
    · rintro ⟨hr | hr, hf⟩
      · rw [f1] at hr
        obtain ⟨hm, he⟩ := mem_removals.mp hr
        have ok := h.trees _ _ ((mem_range hv.order).mp hm)
        rcases (examine_spec ok _ _ _ _ _).mp he with hx | hx | hx
        · rw [hf] at hx; simp at hx
        · rw [hf] at hx; simp at hx
        · rw [hf] at hx; exact absurd hx.2.2.2.symm (finishTree_ne ok _).2.2.1
      · exact hr
    · intro hr
      refine ⟨Or.inr hr, ?_⟩
      rw [List.mem_map] at hr
      obtain ⟨e, _, rfl⟩ := hr
      rfl
  · intro j hj
    have := s6 j hj
    rw [htot, htake] at this
    have h2 := hsplit j
    unfold maxSpans at this
    omega
  · intro hc
    by_cases hlt : k < i.sorted.length
    · have := s7 hc hlt
      rw [htot, htake] at this
      have h2 := hsplit k
      unfold maxSpans at this
      omega
    · rw [List.drop_eq_nil_of_le (by omega)]
      simp [total]
  · show (w.c.shed i).1.metrics.spansDiscarded = _
    rw [s4]
    rw [htake] at hds
    have hm : (w.c.finishLoop i).1.metrics.spansDiscarded = w.c.metrics.spansDiscarded := by
      rw [f4]
      exact (foldl_discarded _ _).1
    dsimp only
    rw [hm]; omega
  · show (w.c.shed i).1.metrics.tracesDiscarded = _
    rw [s4]
    rw [htake] at hds
    have hm : (w.c.finishLoop i).1.metrics.tracesDiscarded = w.c.metrics.tracesDiscarded := by
      rw [f4]
      exact (foldl_discarded _ _).2
    dsimp only
    rw [hm]; omega
where
  foldl_discarded (l : List Removal) (m : Metrics) :
      (l.foldl (fun m r => m.count r.tree r.fate) m).spansDiscarded = m.spansDiscarded ∧
      (l.foldl (fun m r => m.count r.tree r.fate) m).tracesDiscarded = m.tracesDiscarded := by
    induction l generalizing m with
    | nil => exact ⟨rfl, rfl⟩
    | cons r l ih =>
      rw [List.foldl_cons]
      obtain ⟨h1, h2⟩ := ih (m.count r.tree r.fate)
      rw [h1, h2]
      unfold Metrics.count
      cases r.fate <;> exact ⟨rfl, rfl⟩

/-! ## Emitted spans -/

/-- Timing correction keeps everything but start and duration. -/
theorem corrected_map {base out : List Span} {r : Span} (h : Corrected base r out) {α : Type} (f : Span → α)
    (hf : ∀ (s : Span) (a : Timestamp) (b : Duration), f { s with timestamp := a, duration := b } = f s) :
    out.map f = base.map f := by
  obtain ⟨h1, h2⟩ := h
  apply List.ext_getElem?
  intro j
  rw [List.getElem?_map, List.getElem?_map]
  cases hb : base[j]? with
  | none =>
    have : out[j]? = none := by
      rw [List.getElem?_eq_none_iff] at hb ⊢; omega
    rw [this]
  | some s =>
    obtain ⟨h3, h4⟩ := h2 j s hb
    by_cases hp : ∃ anc, Path base r anc s
    · obtain ⟨anc, hp⟩ := hp
      rw [h3 anc hp]
      simp only [Option.map_some, corrected, hf]
    · rw [h4 (fun anc ha => hp ⟨anc, ha⟩)]

/-! ## Valid inputs exist -/

theorem exists_valid (c : Collector) (now1 now2 : Time) (nf : Id → Time) (h : now1 ≤ now2) :
    ∃ i : TickInput, i.Valid c ∧ i.now1 = now1 ∧ i.now2 = now2 ∧ i.nowFake = nf := by
  let i0 : TickInput := ⟨now1, now2, nf, c.traces.toList, [], []⟩
  let le : Id × Tree → Id × Tree → Bool := fun a b => decide (a.2.nodeCount ≥ b.2.nodeCount)
  let s := (c.finishLoop i0).1.traces.toList.mergeSort le
  let i1 : TickInput := ⟨now1, now2, nf, c.traces.toList, s, []⟩
  let i2 : TickInput := ⟨now1, now2, nf, c.traces.toList, s, (c.shed i1).1.blacklist.toList⟩
  refine ⟨i2, ⟨List.Perm.refl _, ?_, ?_, List.Perm.refl _, h⟩, rfl, rfl, rfl⟩
  · exact List.mergeSort_perm _ _
  · have : s.Pairwise (fun a b => le a b = true) := by
      refine List.pairwise_mergeSort ?_ ?_ _
      · intro a b c hab hbc
        simp only [le, decide_eq_true_eq, ge_iff_le] at *
        exact UInt16.le_trans hbc hab
      · intro a b
        simp only [le, Bool.or_eq_true, decide_eq_true_eq]
        exact UInt16.le_total _ _
    refine this.imp ?_
    intro a b hab
    simpa [le] using hab

end Verif
