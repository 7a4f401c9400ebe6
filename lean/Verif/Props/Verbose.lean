import Verif.Proofs.Verbose
import Verif.Props.Warnings

/-!
# C130 to C132: what the log says at the level Debug, and at other levels
-/

namespace Verif

open Spec Std

theorem Spec.Pairwise₂.replicateNil {α β : Type} {R : α → List β → Prop} {l : List α} (h : ∀ a ∈ l, R a []) : Pairwise₂ R l (l.map fun _ => []) := by
  induction l with
  | nil => exact .nil
  | cons a l ih => exact .cons (h a List.mem_cons_self) (ih fun x hx => h x (List.mem_cons_of_mem _ hx))

theorem finishWritten_tells {clock : Time} {dU dS : Time} {nf : Id → Time} {e : Id × Tree} (h : TreeOk clock e.1 e.2) :
    ∃ ds, Pairwise₂ Account (removals dU dS nf [e]) ds ∧ TellsAll (finishWritten entryLevel 5 dU dS nf e) ds.flatten := by
  unfold finishWritten removals examine
  rw [List.filterMap_cons, List.filterMap_nil]
  dsimp only
  by_cases h1 : (!e.2.tooLarge && !decide (e.2.started < dS) && decide (e.2.updated > dU)) = true
  · rw [if_pos h1, if_pos h1]; exact ⟨[], .nil, .nil⟩
  · rw [if_neg h1, if_neg h1]
    by_cases h2 : e.2.tooLarge = true
    · rw [if_pos h2, if_pos h2]
      refine ⟨[_], .cons .tooLarge .nil, ?_⟩
      rw [show size e.2 = e.2.nodeCount.toNat from h.inv.count.symm]
      exact .cons (.notice (.tooLarge (idText_spec _) (numberText_spec _))) (printTrace_tells _).one
    · rw [if_neg h2, if_neg h2]
      by_cases h3 : decide (e.2.started < dS) = true
      · rw [if_pos h3, if_pos h3]
        refine ⟨[_], .cons .tooOld .nil, ?_⟩
        rw [show size e.2 = e.2.nodeCount.toNat from h.inv.count.symm]
        exact .cons (.notice (.tooOld (idText_spec _) (numberText_spec _))) (printTrace_tells _).one
      · rw [if_neg h3, if_neg h3]
        obtain ⟨d, hd, hw⟩ := rootLinesW_tells (nf e.1) h.ok
        rw [h.id] at hd hw
        refine ⟨[d], .cons hd .nil, ?_⟩
        rw [List.flatten_singleton]
        exact hw

theorem finishAll_tells {clock : Time} {dU dS : Time} {nf : Id → Time} {l : List (Id × Tree)} (h : ∀ e ∈ l, TreeOk clock e.1 e.2) :
    ∃ ds, Pairwise₂ Account (removals dU dS nf l) ds ∧ TellsAll (l.flatMap (finishWritten entryLevel 5 dU dS nf)) ds.flatten := by
  induction l with
  | nil => exact ⟨[], .nil, .nil⟩
  | cons e l ih =>
    obtain ⟨ds, h1, h2⟩ := ih fun x hx => h x (List.mem_cons_of_mem _ hx)
    obtain ⟨ds', h1', h2'⟩ := finishWritten_tells (dU := dU) (dS := dS) (nf := nf) (h e List.mem_cons_self)
    refine ⟨ds' ++ ds, ?_, ?_⟩
    · have split : removals dU dS nf (e :: l) = removals dU dS nf [e] ++ removals dU dS nf l := by
        unfold removals
        rw [← List.filterMap_append]; rfl
      rw [split]
      exact h1'.app h1
    · rw [List.flatMap_cons, List.flatten_append]
      exact h2'.append h2

theorem checking_tells (n : Nat) : Tells (debugf 5 (b!"Checking for expired spans with bufferTime=" ++ durationText (Int64.ofInt (bufferTime n)) ++ b!" (" ++ numberText n ++ b!" spans)"))
    (.checking (Spec.bufferTime n / 1000000000).toNat n) := by
  rw [bufferTime_eq]
  have go : ∀ (bt : Time) (s : Str) (k : Nat), CountText s k → durationText (Int64.ofInt bt) = s ++ b!"s" → (bt / 1000000000).toNat = k →
      Tells (debugf 5 (b!"Checking for expired spans with bufferTime=" ++ durationText (Int64.ofInt bt) ++ b!" (" ++ numberText n ++ b!" spans)")) (.checking (bt / 1000000000).toNat n) := by
    intro bt s k hs ht hk
    rw [ht, hk]
    have := Tells.checking hs (numberText_spec n)
    simpa only [debugf, if_pos (show debugLevel ≤ 5 from Nat.le_refl 5), List.append_assoc, List.cons_append, List.nil_append] using this
  unfold Spec.bufferTime
  split
  · exact go _ b!"8" 8 (by unfold CountText; decide) (by decide +kernel) (by decide)
  · split
    · exact go _ b!"6" 6 (by unfold CountText; decide) (by decide +kernel) (by decide)
    · split
      · exact go _ b!"4" 4 (by unfold CountText; decide) (by decide +kernel) (by decide)
      · exact go _ b!"2" 2 (by unfold CountText; decide) (by decide +kernel) (by decide)

theorem says_tells {lines : List Str} {ns : List Notice} (h : Pairwise₂ Says lines ns) : TellsAll (lines.flatMap (warnf 5)) (ns.map .notice) := by
  induction h with
  | nil => exact .nil
  | cons ha _ ih => exact .cons (.notice ha) ih

/-- C130: what a tick writes at the level Debug: the buffer time and the number of spans; then, for each trace that leaves, in the order of their removal, why it is dropped (too large,
too old, no unique root), with its id, the number of its spans and the spans themselves, and whether a root was made up for it; then what is said when load is shed. There is nothing else:
nothing on a trace that is passed on as it is, and nothing on a single trace that is discarded. -/
theorem C130_debug_log {w : World} (hw : Reachable w) {i : TickInput} (hv : i.Valid w.c) :
    let gone := discardedOf (w.c.tick i).2
    let lost := (gone.map fun r => size r.tree).sum
    let held := counted w.c.traces.toList
    ∃ accounts, Pairwise₂ Account (w.c.tick i).2 accounts ∧
      TellsAll (w.c.tickWritten 5 i)
        (.checking (Spec.bufferTime held / 1000000000).toNat held :: (accounts.flatten ++
          (shedNotices held (total (w.c.tick i).1.traces.toList + lost) gone.length lost).map .notice)) := by
  dsimp only
  have hinv := reachable_inv hw
  have hshed := shed_says hw hv
  obtain ⟨f1, _⟩ := finishLoop_eq w.c i
  obtain ⟨k, hk, s1, _⟩ := shed_eq w.c i
  dsimp only at *
  have hcount : spanCountOf w.c.traces.toList = counted w.c.traces.toList := spanCountOf_eq hinv.inv
  obtain ⟨ds, h1, h2⟩ := finishAll_tells (clock := w.clock) (dU := i.now1 - bufferTime (spanCountOf w.c.traces.toList)) (dS := i.now2 - 5 * bufferTime (spanCountOf w.c.traces.toList))
    (nf := i.nowFake) (l := i.order) fun e he => hinv.trees _ _ ((mem_range hv.order).mp he)
  refine ⟨ds ++ (i.sorted.take k).map fun _ => [], ?_, ?_⟩
  · rw [show (w.c.tick i).2 = (w.c.shed i).2 from rfl, s1, f1]
    refine h1.app ?_
    have := Spec.Pairwise₂.replicateNil (R := Account) (l := (i.sorted.take k).map fun e => (⟨e.1, e.2, .discarded⟩ : Removal)) (by
      intro r hr
      obtain ⟨e, _, rfl⟩ := List.mem_map.mp hr
      exact .discarded)
    rw [List.map_map] at this
    exact this
  · have hnil : ((i.sorted.take k).map fun _ => ([] : List Detail)).flatten = [] := by
      rw [List.flatten_eq_nil_iff]
      intro l hl
      obtain ⟨_, _, rfl⟩ := List.mem_map.mp hl
      rfl
    rw [List.flatten_append, hnil, List.append_nil]
    unfold Collector.tickWritten
    dsimp only
    rw [List.append_assoc]
    refine .cons (hcount ▸ checking_tells (spanCountOf w.c.traces.toList)) (h2.append ?_)
    have := says_tells hshed
    by_cases hc : spanCountOf w.c.traces.toList > maxSpans
    · rw [if_pos hc] at this ⊢
      exact this
    · rw [if_neg hc] at this ⊢
      exact this

/-- C130: every trace that is dropped because of its size, its age or its roots is named in the log. -/
theorem C130_named {w : World} (hw : Reachable w) {i : TickInput} (hv : i.Valid w.c) {r : Removal} (hr : r ∈ (w.c.tick i).2) (h1 : ∀ out, r.fate ≠ .emitted out) (h2 : r.fate ≠ .discarded) :
    ∃ line ∈ texts (w.c.tickWritten 5 i), ∃ n, Says line (.tooLarge r.id n) ∨ Says line (.tooOld r.id n) ∨ Tells [.text line] (.noRoot r.id n) := by
  obtain ⟨accounts, ha, ht⟩ := C130_debug_log hw hv
  obtain ⟨ds, hds, hacc⟩ : ∃ ds ∈ accounts, Account r ds := by
    generalize (w.c.tick i).2 = l at ha hr
    clear ht
    induction ha with
    | nil => cases hr
    | cons hab _ ih =>
      rcases List.mem_cons.mp hr with rfl | h
      · exact ⟨_, List.mem_cons_self, hab⟩
      · obtain ⟨ds, hd, h⟩ := ih h
        exact ⟨ds, List.mem_cons_of_mem _ hd, h⟩
  have part : ∀ {a : List Written} {l : List Detail}, TellsAll a l → ∀ d ∈ l, ∃ b, Tells b d ∧ ∀ x ∈ b, x ∈ a := by
    intro a l h
    induction h with
    | nil => intro d hd; cases hd
    | @cons a b d' l ha _ ih =>
      intro d hd
      rcases List.mem_cons.mp hd with rfl | h
      · exact ⟨a, ha, fun x hx => List.mem_append_left _ hx⟩
      · obtain ⟨c, hc, hm⟩ := ih d h
        exact ⟨c, hc, fun x hx => List.mem_append_right _ (hm x hx)⟩
  have pick : ∀ d ∈ ds, ∃ b, Tells b d ∧ ∀ x ∈ b, x ∈ w.c.tickWritten 5 i := fun d hd =>
    part ht d (List.mem_cons_of_mem _ (List.mem_append_left _ (List.mem_flatten.mpr ⟨ds, hds, hd⟩)))
  have mem : ∀ line, Written.text line ∈ w.c.tickWritten 5 i → line ∈ texts (w.c.tickWritten 5 i) := fun line h => List.mem_filterMap.mpr ⟨_, h, rfl⟩
  cases hacc with
  | tooLarge =>
    obtain ⟨b, hb, hm⟩ := pick _ List.mem_cons_self
    cases hb with
    | notice hs => exact ⟨_, mem _ (hm _ List.mem_cons_self), _, .inl hs⟩
  | tooOld =>
    obtain ⟨b, hb, hm⟩ := pick _ List.mem_cons_self
    cases hb with
    | notice hs => exact ⟨_, mem _ (hm _ List.mem_cons_self), _, .inr (.inl hs)⟩
  | emitted _ => exact absurd rfl (h1 _)
  | repaired _ _ => exact absurd rfl (h1 _)
  | noRoot _ =>
    obtain ⟨b, hb, hm⟩ := pick _ List.mem_cons_self
    cases hb with
    | noRoot hi hn => exact ⟨_, mem _ (hm _ List.mem_cons_self), _, .inr (.inr (.noRoot hi hn))⟩
  | inVain _ _ =>
    obtain ⟨b, hb, hm⟩ := pick _ (List.mem_cons_of_mem _ (List.mem_cons_of_mem _ List.mem_cons_self))
    cases hb with
    | noRoot hi hn => exact ⟨_, mem _ (hm _ List.mem_cons_self), _, .inr (.inr (.noRoot hi hn))⟩
  | discarded => exact absurd rfl h2

open WarningsWitness in
/-- The two spans with different parents, nine seconds later: the trace has no unique root, and the level Debug tells. -/
theorem C130_witness : Reachable (flood pair) ∧ (tickAt 9000000000).Valid (flood pair).c ∧
    texts ((flood pair).c.tickWritten 5 (tickAt 9000000000)) =
      [b!"Checking for expired spans with bufferTime=8s (2 spans)", b!"No unique root for trace 0000000000000005 with 2 spans"] ∧
    ((flood pair).c.tickWritten 5 (tickAt 9000000000)).length = 7 :=
  ⟨flood_reachable _, valid (by decide +kernel), by decide +kernel, by decide +kernel⟩

/-! ## C131: other levels -/

theorem warnf_mono {a b : Nat} (h : a ≤ b) (s : Str) : (warnf a s).Sublist (warnf b s) := by
  unfold warnf
  split
  · rw [if_pos (by omega)]; exact List.Sublist.refl _
  · exact List.nil_sublist _

theorem debugf_mono {a b : Nat} (h : a ≤ b) (s : Str) : (debugf a s).Sublist (debugf b s) := by
  unfold debugf
  split
  · rw [if_pos (by omega)]; exact List.Sublist.refl _
  · exact List.nil_sublist _

theorem printTrace_mono {a b : Nat} (h : a ≤ b) (hb : b ≤ 5) (spans : List Span) : (printTrace a spans).Sublist (printTrace b spans) := by
  by_cases ha : a = 5
  · rw [ha, show b = 5 by omega]; exact List.Sublist.refl _
  · rw [printTrace_other ha]; exact List.nil_sublist _

theorem flatMap_mono {α : Type} {f g : α → List Written} (h : ∀ a, (f a).Sublist (g a)) (l : List α) : (l.flatMap f).Sublist (l.flatMap g) := by
  induction l with
  | nil => exact .slnil
  | cons a l ih => rw [List.flatMap_cons, List.flatMap_cons]; exact (h a).append ih

theorem timing_silent (level : Nat) (spans : List Span) (r : Nat) : ((correctTreeW entryLevel level spans.length ({ spans }, []) r none 0).map (·.2)).getD [] = [] := by
  rw [correctTreeW_silent (by decide)]
  cases correctTree _ _ r none 0 <;> rfl

theorem rootLinesW_mono {a b : Nat} (h : a ≤ b) (hb : b ≤ 5) (nf : Time) (id : Id) (t : Tree) : (rootLinesW entryLevel a nf id t).Sublist (rootLinesW entryLevel b nf id t) := by
  unfold rootLinesW
  dsimp only
  refine List.Sublist.append ?_ ?_
  · split
    · exact (debugf_mono h _).append (printTrace_mono h hb _)
    · exact .slnil
  · split
    · rw [timing_silent, timing_silent]; exact List.Sublist.refl _
    · exact (debugf_mono h _).append (printTrace_mono h hb _)

/-- C131, in part: up to the level Debug, a more verbose level shows everything that a less verbose one shows, in the same order. -/
theorem C131_partial (c : Collector) (i : TickInput) {a b : Nat} (h : a ≤ b) (hb : b ≤ 5) : (c.tickWritten a i).Sublist (c.tickWritten b i) := by
  unfold Collector.tickWritten
  dsimp only
  refine List.Sublist.append (List.Sublist.append (debugf_mono h _) (flatMap_mono (fun e => ?_) _)) ?_
  · unfold finishWritten
    dsimp only
    split
    · exact .slnil
    · split
      · exact (warnf_mono h _).append (printTrace_mono h hb _)
      · split
        · exact (warnf_mono h _).append (printTrace_mono h hb _)
        · exact rootLinesW_mono h hb _ _ _
  · split
    · exact (warnf_mono h _).append (flatMap_mono (fun s => warnf_mono h s) _)
    · exact .slnil

/-- Only the texts. -/
def onlyTexts (l : List Written) : List Written := (texts l).map .text

theorem onlyTexts_append (a b : List Written) : onlyTexts (a ++ b) = onlyTexts a ++ onlyTexts b := by
  unfold onlyTexts texts
  rw [List.filterMap_append, List.map_append]

theorem onlyTexts_flatMap {α : Type} {f g : α → List Written} (h : ∀ a, f a = onlyTexts (g a)) (l : List α) : l.flatMap f = onlyTexts (l.flatMap g) := by
  induction l with
  | nil => rfl
  | cons a l ih => rw [List.flatMap_cons, List.flatMap_cons, onlyTexts_append, h, ih]

theorem onlyTexts_tree (l : List LogLine) : onlyTexts (l.map .tree) = [] := by
  unfold onlyTexts texts
  rw [List.map_eq_nil_iff, List.filterMap_eq_nil_iff]
  intro x hx
  obtain ⟨y, _, rfl⟩ := List.mem_map.mp hx
  rfl

/-- C131: beyond the level Debug, the printed traces are missing; everything else is there. -/
theorem C131_beyond (c : Collector) (i : TickInput) {level : Nat} (h : 5 < level) : c.tickWritten level i = (texts (c.tickWritten 5 i)).map .text := by
  have hw : ∀ s, warnf level s = onlyTexts (warnf 5 s) := by
    intro s
    unfold warnf
    rw [if_pos (by unfold warnLevel; omega), if_pos (by decide)]; rfl
  have hd : ∀ s, debugf level s = onlyTexts (debugf 5 s) := by
    intro s
    unfold debugf
    rw [if_pos (by unfold debugLevel; omega), if_pos (by decide)]; rfl
  have hp : ∀ spans, printTrace level spans = onlyTexts (printTrace 5 spans) := by
    intro spans
    rw [printTrace_other (by omega)]
    exact (onlyTexts_tree _).symm
  show _ = onlyTexts _
  unfold Collector.tickWritten
  dsimp only
  rw [onlyTexts_append, onlyTexts_append, ← hd]
  congr 1
  · congr 1
    refine onlyTexts_flatMap (fun e => ?_) _
    unfold finishWritten
    dsimp only
    split
    · rfl
    · split
      · rw [onlyTexts_append, hw, hp]
      · split
        · rw [onlyTexts_append, hw, hp]
        · unfold rootLinesW
          dsimp only
          rw [onlyTexts_append]
          congr 1
          · split
            · rw [onlyTexts_append, hd, hp]
            · rfl
          · split
            · rw [timing_silent, timing_silent]; rfl
            · rw [onlyTexts_append, hd, hp]
  · split
    · rw [onlyTexts_append, hw]
      congr 1
      exact onlyTexts_flatMap hw _
    · rfl

open WarningsWitness in
/-- C131 does not hold: at the level Trace there is less in the log than at the level Debug. -/
theorem C131_fails : ¬ ∀ (w : World) (i : TickInput), Reachable w → i.Valid w.c → ∀ a b, a ≤ b → (w.c.tickWritten a i).Sublist (w.c.tickWritten b i) := by
  intro h
  have hl := (h _ _ (flood_reachable pair) (valid (now := 60000000000) (by decide +kernel)) 5 6 (by decide)).length_le
  rw [show ((flood pair).c.tickWritten 5 (tickAt 60000000000)).length = 7 by decide +kernel,
    show ((flood pair).c.tickWritten 6 (tickAt 60000000000)).length = 2 by decide +kernel] at hl
  exact absurd hl (by decide)

/-- The level Warn of the collector is the default log of C122. -/
theorem C131_default (c : Collector) (i : TickInput) : c.tickWritten 4 i = (c.tickLines i).map .text := by
  have hp : ∀ spans, printTrace 4 spans = [] := printTrace_other (by decide)
  have hd : ∀ s, debugf 4 s = [] := fun _ => rfl
  have hw : ∀ s, warnf 4 s = [.text s] := fun _ => rfl
  have hf : ∀ l : List Str, l.flatMap (warnf 4) = l.map .text := by
    intro l
    induction l with
    | nil => rfl
    | cons s l ih => rw [List.flatMap_cons, ih]; rfl
  unfold Collector.tickWritten Collector.tickLines
  dsimp only
  rw [hd, List.nil_append, List.map_append]
  congr 1
  · generalize i.order = l
    induction l with
    | nil => rfl
    | cons e l ih =>
      rw [List.flatMap_cons, List.flatMap_cons, List.map_append, ih]
      congr 1
      unfold finishWritten finishLine
      dsimp only
      split
      · rfl
      · split
        · rw [hw, hp]; rfl
        · split
          · rw [hw, hp]; rfl
          · unfold rootLinesW
            dsimp only
            rw [hd, hp, List.append_nil, ite_self, List.nil_append]
            split
            · exact timing_silent _ _ _
            · rfl
  · split
    · rw [hf, hw]; rfl
    · rfl

/-! ## C132: corrections of times -/

/-- A line about the time of a span. -/
def AboutTime (line : Str) : Prop := b!"Found time screw" <+: line ∨ b!"Timestamp of" <+: line

theorem not_aboutTime : ∀ {l : Str} {d : Detail}, Tells [.text l] d → ¬ AboutTime l := by
  have h1 : ∀ {p q : UInt8} {a b : Str}, p ≠ q → ¬ (p :: a) <+: (q :: b) := by
    rintro p q a b hne ⟨t, ht⟩
    exact hne (List.cons.inj ht).1
  have h2 : ∀ {p q r : UInt8} {a b : Str}, p ≠ q → ¬ (r :: p :: a) <+: (r :: q :: b) := by
    rintro p q r a b hne ⟨t, ht⟩
    exact hne (List.cons.inj (List.cons.inj ht).2).1
  intro l d h
  generalize ha : [Written.text l] = a at h
  cases h with
  | notice hs =>
    cases ha
    cases hs with
    | tooLarge _ _ => rintro (h | h); exacts [h1 (by decide) h, h2 (by decide) h]
    | tooOld _ _ => rintro (h | h); exacts [h1 (by decide) h, h2 (by decide) h]
    | crowded _ => rintro (h | h); exacts [h1 (by decide) h, h2 (by decide) h]
    | excess _ => rintro (h | h); exacts [h1 (by decide) h, h1 (by decide) h]
    | discarded _ _ => rintro (h | h); exacts [h1 (by decide) h, h2 (by decide) h]
    | sending _ _ => rintro (h | h); exacts [h1 (by decide) h, h1 (by decide) h]
    | refused => rintro (h | h); exacts [h1 (by decide) h, h1 (by decide) h]
    | blocked _ => rintro (h | h); exacts [h1 (by decide) h, h1 (by decide) h]
  | checking _ _ => cases ha; rintro (h | h); exacts [h1 (by decide) h, h1 (by decide) h]
  | injected => cases ha; rintro (h | h); exacts [h1 (by decide) h, h1 (by decide) h]
  | noRoot _ _ => cases ha; rintro (h | h); exacts [h1 (by decide) h, h1 (by decide) h]
  | @tree lines _ _ =>
    cases lines with
    | nil => cases ha
    | cons => cases ha

/-- C132, in part: what is written about the times of spans, at any level: nothing. `log.Level` is not the level of the logger, but the zero value. -/
theorem C132_partial {w : World} (hw : Reachable w) {i : TickInput} (hv : i.Valid w.c) (level : Nat) : ∀ line ∈ texts (w.c.tickWritten level i), ¬ AboutTime line := by
  have main : ∀ line ∈ texts (w.c.tickWritten 5 i), ¬ AboutTime line := by
    obtain ⟨accounts, _, ht⟩ := C130_debug_log hw hv
    generalize w.c.tickWritten 5 i = a at ht
    generalize _ :: _ = l at ht
    intro line hl
    obtain ⟨x, hx, e⟩ := List.mem_filterMap.mp hl
    cases x with
    | tree _ => cases e
    | text line' =>
      cases e
      clear hl
      induction ht with
      | nil => cases hx
      | @cons a b d l ha _ ih =>
        rcases List.mem_append.mp hx with h | h
        · cases ha with
          | notice hs => cases List.mem_singleton.mp h; exact not_aboutTime (.notice hs)
          | checking h1 h2 => cases List.mem_singleton.mp h; exact not_aboutTime (.checking h1 h2)
          | injected => cases List.mem_singleton.mp h; exact not_aboutTime .injected
          | noRoot h1 h2 => cases List.mem_singleton.mp h; exact not_aboutTime (.noRoot h1 h2)
          | tree _ =>
            obtain ⟨_, _, e⟩ := List.mem_map.mp h
            cases e
        · exact ih h
  intro line hl
  by_cases h5 : level ≤ 5
  · exact main line (((C131_partial w.c i h5 (Nat.le_refl 5)).filterMap _).mem hl)
  · rw [C131_beyond w.c i (Nat.lt_of_not_le h5)] at hl
    refine main line ?_
    obtain ⟨x, hx, e⟩ := List.mem_filterMap.mp hl
    obtain ⟨y, hy, rfl⟩ := List.mem_map.mp hx
    cases e
    exact hy

namespace VerboseWitness

/-- A span of one second, for a server whose clock is an hour ahead. -/
def late : List Span :=
  [{ id := 7, trace := 7, parent := 7, timestamp := 1600000000000000000, duration := 1000000000,
     timings := { CS := 1600000000000000000, CR := 1600000001000000000, SR := 1600003600000000000, SS := 1600003601000000000 } }]

/-- A tick nine seconds later. -/
def tickLate : TickInput :=
  let i : TickInput := { now1 := 9000000000, now2 := 9000000000, nowFake := fun _ => 0, order := (flood late).c.traces.toList, sorted := [], blOrder := [] }
  { i with blOrder := ((flood late).c.shed i).1.blacklist.toList }

theorem valid : tickLate.Valid (flood late).c := by
  have h : ((flood late).c.finishLoop tickLate).1.traces.toList.length = 0 := by decide +kernel
  refine ⟨isRange_refl (flood late).c.traces, ?_, List.Pairwise.nil, isRange_refl ((flood late).c.shed tickLate).1.blacklist, Int.le_refl _⟩
  rw [List.length_eq_zero_iff] at h
  show List.Perm [] _
  rw [h]

end VerboseWitness

/-- The clocks of client and server differ by more than 25 milliseconds: by how much the middles of their intervals are apart. -/
def Skewed (s : Span) : Prop :=
  s.timings.CS ≠ 0 ∧ s.timings.CR ≠ 0 ∧ s.timings.SR ≠ 0 ∧ s.timings.SS ≠ 0 ∧
    2 * 25000000 + 2 < ((s.timings.CR.toInt + s.timings.CS.toInt) - (s.timings.SR.toInt + s.timings.SS.toInt)).natAbs

instance (s : Span) : Decidable (Skewed s) := by unfold Skewed; infer_instance

open VerboseWitness in
/-- C132 does not hold: the clocks differ by an hour, the trace is passed on, and no line is about this. -/
theorem C132_fails : ¬ ∀ (w : World) (i : TickInput), Reachable w → i.Valid w.c → ∀ r ∈ (w.c.tick i).2, (∃ out, r.fate = .emitted out) → ∀ s ∈ r.tree.spans, Skewed s →
    ∃ line ∈ texts (w.c.tickWritten 5 i), AboutTime line := by
  intro h
  have hn : (emittedOf ((flood late).c.tick tickLate).2).length = 1 := by decide +kernel
  have hs : ((flood late).c.tick tickLate).2.all fun r => r.tree.spans.length == 1 && r.tree.spans.all fun s => decide (Skewed s) := by decide +kernel
  match he : emittedOf ((flood late).c.tick tickLate).2, hn with
  | [out], _ =>
    obtain ⟨r, hr, e⟩ := List.mem_filterMap.mp (show out ∈ emittedOf ((flood late).c.tick tickLate).2 by rw [he]; exact List.mem_cons_self)
    have hall := List.all_eq_true.mp hs r hr
    rw [Bool.and_eq_true, beq_iff_eq, List.all_eq_true] at hall
    obtain ⟨s, hm⟩ : ∃ s, s ∈ r.tree.spans := by
      match hl : r.tree.spans, hall.1 with
      | s :: _, _ => exact ⟨s, List.mem_cons_self⟩
    have hfate : ∃ out, r.fate = .emitted out := by
      cases hf : r.fate <;> rw [hf] at e <;> first | exact ⟨_, rfl⟩ | cases e
    obtain ⟨line, hl, ha⟩ := h _ _ (flood_reachable late) valid r hr hfate s hm (of_decide_eq_true (hall.2 s hm))
    exact C132_partial (flood_reachable late) valid 5 line hl ha

/-- C132: what is missing. Were the level of the logger compared, each span with such clocks would be reported. -/
theorem C132_meant {level : Nat} (hl : 5 ≤ level) (node : Span) (parent : Option Span) (offset : Duration)
    (h : node.timings.CR ≠ 0 ∧ node.timings.CS ≠ 0 ∧ node.timings.SR ≠ 0 ∧ node.timings.SS ≠ 0)
    (hs : let screw := (node.timings.CR + node.timings.CS) / 2 - (node.timings.SR + node.timings.SS) / 2; screw < -25000000 ∨ screw > 25000000) :
    ∃ line ∈ texts (timingLines level level node parent offset), AboutTime line := by
  unfold timingLines
  dsimp only at hs ⊢
  have hn : (if offset ≠ 0 then { node with timestamp := node.timestamp + offset } else node).timings = node.timings := by split <;> rfl
  rw [hn, if_pos h, if_pos (show level ≥ debugLevel from hl), if_pos hs]
  unfold texts debugf
  rw [if_pos (show debugLevel ≤ level from hl), List.filterMap_append, List.filterMap_cons]
  exact ⟨_, List.mem_append_left _ List.mem_cons_self, .inl ⟨_, rfl⟩⟩

end Verif
