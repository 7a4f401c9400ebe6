import Verif.Spec.Divided
import Verif.Props.Intact

/-!
# C135: What is sent of a trace, and when its spans arrive; C136, C138: Ids that are sent twice
-/

namespace Verif

open Spec

/-- The spans of a trace that left are in the parts of this trace. -/
theorem removed_members {w : World} (hw : Reachable w) (k : Id) (l : List Removal) (hl : ∀ r ∈ l, r ∈ w.removed) :
    (l.flatMap fun r => r.tree.members).filter (fun s => s.trace == k) = (l.filter fun r => r.id == k).flatMap fun r => r.tree.members := by
  induction l with
  | nil => rfl
  | cons r l ih =>
    have hr := ((reachable_inv hw).gone r (hl r (by simp))).members
    rw [List.flatMap_cons, List.filter_append, ih fun q hq => hl q (List.mem_cons_of_mem _ hq), List.filter_cons]
    by_cases hk : r.id = k
    · rw [if_pos (by simp [hk]), List.flatMap_cons, List.filter_eq_self.mpr]
      intro s hs
      simp [(hr s hs).1, hk]
    · rw [if_neg (by simp [hk]), List.filter_eq_nil_iff.mpr, List.nil_append]
      intro s hs
      simp [(hr s hs).1, hk]

/-- Everything that was received for a trace is in the parts in which it was sent. -/
theorem allSent_members {w : World} (hw : Reachable w) {k : Id} (h : AllSent k w) :
    (receivedFor k w.received).Perm ((w.removed.filter fun r => r.id == k).flatMap fun r => r.tree.members) := by
  have inv := reachable_inv hw
  have h1 := inv.conserved.filter fun s => s.trace == k
  rw [List.filter_filter, List.filter_append, List.filter_append] at h1
  have e1 : (pendingMembers w.c).filter (fun s => s.trace == k) = [] := by
    rw [List.filter_eq_nil_iff]
    intro s hs
    obtain ⟨e, he, hs⟩ := List.mem_flatMap.mp hs
    have hget := (mem_range (isRange_refl w.c.traces)).mp he
    have ht := ((inv.trees _ _ hget).members s hs).1
    simp only [beq_iff_eq, ht]
    intro e'
    rw [e', h.pending] at hget
    cases hget
  have e2 : w.refused.filter (fun s => s.trace == k) = [] := by
    rw [List.filter_eq_nil_iff]
    intro s hs
    simp only [beq_iff_eq]
    exact h.refused s hs
  rw [e1, e2, removed_members hw k w.removed fun r hr => hr, List.nil_append, List.append_nil] at h1
  refine List.Perm.trans (List.Perm.of_eq ?_) h1
  unfold receivedFor
  exact List.filter_congr fun s _ => Bool.and_comm _ _

/-- The parts of a trace, taken together. -/
theorem parts_sent {w : World} {k : Id} {α : Type} (f : Span → α) (R : List Removal) (hR : ∀ r ∈ R, r ∈ w.removed ∧ r.id = k ∧ ∃ out, r.fate = .emitted out)
    (hpart : ∀ r ∈ R, ∀ out, r.fate = .emitted out → ∃ fake : List Span, fake.length ≤ 1 ∧ (∀ g ∈ fake, MadeUp k w g) ∧
      (out.map f).Perm (r.tree.members.map f ++ fake.map f)) :
    ∃ made : List Span, made.length ≤ R.length ∧ (∀ g ∈ made, MadeUp k w g) ∧
      ((emittedOf R).flatten.map f).Perm ((R.flatMap fun r => r.tree.members).map f ++ made.map f) := by
  induction R with
  | nil => exact ⟨[], Nat.le_refl _, (fun g hg => absurd hg (by simp)), List.Perm.refl _⟩
  | cons r R ih =>
    obtain ⟨made, hl, hm, hp⟩ := ih (fun q hq => hR q (List.mem_cons_of_mem _ hq)) fun q hq => hpart q (List.mem_cons_of_mem _ hq)
    obtain ⟨_, _, out, ho⟩ := hR r (by simp)
    obtain ⟨fake, fl, fm, fp⟩ := hpart r (by simp) out ho
    refine ⟨fake ++ made, ?_, ?_, ?_⟩
    · rw [List.length_append, List.length_cons]; omega
    · intro g hg
      exact (List.mem_append.mp hg).elim (fm g) (hm g)
    · have e : emittedOf (r :: R) = out :: emittedOf R := by
        show emittedOf ([r] ++ R) = _
        rw [emittedOf_append]
        simp [emittedOf, ho]
      rw [e, List.flatten_cons, List.map_append, List.flatMap_cons, List.map_append, List.map_append]
      refine (fp.append hp).trans ?_
      rw [List.append_assoc, List.append_assoc]
      refine List.Perm.append_left _ ?_
      rw [← List.append_assoc, ← List.append_assoc]
      exact List.Perm.append_right _ List.perm_append_comm

theorem fake_madeUp {w : World} {r : Removal} (hr : r ∈ w.removed) {f : Span} {p : Id} (hsp : SharedParent r.tree.spans p) (hf : FakeRoot r.id p r.tree.spans f)
    (hh : held f.id r.tree.members = none) : MadeUp r.id w f := by
  refine ⟨r, hr, rfl, hf.id ▸ hsp, hf.id ▸ hf, fun m hm e => ?_⟩
  have := (held_isSome f.id r.tree.members).mpr ⟨m, hm, e⟩
  rw [hh] at this
  cases this

theorem members_nodup {w : World} (hw : Reachable w) {k : Id} (hn : ((receivedFor k w.received).map Span.id).Nodup) {r : Removal} (hr : r ∈ w.removed) (hk : r.id = k) :
    (r.tree.members.map Span.id).Nodup :=
  (((reachable_inv hw).infix_ r hr).sublist.map Span.id).nodup (hk ▸ hn)

/-- C135, in part: if the spans of a trace have different ids, and all of them are sent, then what is sent, in one part or in several, are these spans, unchanged up to their start and duration, and
one made up root for each part at most. Missing: start and duration, which depend on the parts (`C135_fails`), and the roots that are made up (`C136_fails`). -/
theorem C135_partial {w : World} (hw : Reachable w) {k : Id} (hn : ((receivedFor k w.received).map Span.id).Nodup) (h : AllSent k w) :
    ∃ made : List Span, made.length ≤ (sentFor k w).length ∧ (∀ f ∈ made, MadeUp k w f) ∧
      ((sentSpans k w).map untimed).Perm ((receivedFor k w.received).map untimed ++ made.map untimed) := by
  have hR : ∀ r ∈ w.removed.filter (fun r => r.id == k), r ∈ w.removed ∧ r.id = k ∧ ∃ out, r.fate = .emitted out := by
    intro r hr
    obtain ⟨h1, h2⟩ := List.mem_filter.mp hr
    have h2 : r.id = k := by simpa using h2
    exact ⟨h1, h2, h.removed r h1 h2⟩
  obtain ⟨made, hl, hm, hp⟩ := parts_sent untimed _ hR (by
    intro r hr out ho
    obtain ⟨h1, rfl, _⟩ := hR r hr
    have ok := (reachable_inv hw).gone r h1
    obtain ⟨fake, f1, f2, f3, _⟩ := finished_spans ok ((removed_spec hw r h1).2 out ho).1
    refine ⟨fake, f1, fun g hg => ?_, ?_⟩
    · obtain ⟨⟨p, hsp, hf⟩, hh⟩ := f2 g hg
      exact fake_madeUp h1 hsp hf hh
    · have := (perm_of_held ok rfl (members_nodup hw hn h1 rfl)).map untimed
      rw [List.map_map, List.map_map] at this
      refine f3.trans ?_
      rw [List.map_append]
      exact (List.Perm.append_left _ this).trans List.perm_append_comm)
  refine ⟨made, Nat.le_trans hl ?_, hm, hp.trans (List.Perm.append_right _ ((allSent_members hw h).symm.map _))⟩
  unfold sentFor
  generalize w.removed.filter _ = R at hR
  clear hl hp
  induction R with
  | nil => exact Nat.le_refl _
  | cons r R ih =>
    obtain ⟨_, _, out, ho⟩ := hR r (by simp)
    have e : emittedOf (r :: R) = out :: emittedOf R := by
      show emittedOf ([r] ++ R) = _
      rw [emittedOf_append]
      simp [emittedOf, ho]
    rw [e, List.length_cons, List.length_cons]
    have := ih fun q hq => hR q (List.mem_cons_of_mem _ hq)
    omega

/-- C135: so the order and the parts make no difference to what is sent of the spans, up to start and duration. -/
theorem C135_same {w w' : World} (hw : Reachable w) (hw' : Reachable w') {k : Id} (hr : (receivedFor k w.received).Perm (receivedFor k w'.received))
    (hn : ((receivedFor k w.received).map Span.id).Nodup) (h : AllSent k w) (h' : AllSent k w') :
    ∃ (told : List Span) (made made' : List Span), (∀ f ∈ made, MadeUp k w f) ∧ (∀ f ∈ made', MadeUp k w' f) ∧
      ((sentSpans k w).map untimed).Perm (told.map untimed ++ made.map untimed) ∧ ((sentSpans k w').map untimed).Perm (told.map untimed ++ made'.map untimed) := by
  obtain ⟨made, _, hm, hp⟩ := C135_partial hw hn h
  obtain ⟨made', _, hm', hp'⟩ := C135_partial hw' ((hr.map Span.id).nodup_iff.mp hn) h'
  exact ⟨receivedFor k w.received, made, made', hm, hm', hp, hp'.trans (List.Perm.append_right _ (hr.symm.map _))⟩

/-- C135: where clocks agree, start and duration are as they were received, too, in whatever parts the trace is sent. -/
theorem C135_steady {w : World} (hw : Reachable w) {k : Id} (hn : ((receivedFor k w.received).map Span.id).Nodup) (h : AllSent k w) (hs : Steady (receivedFor k w.received)) :
    ∃ made : List Span, (∀ f ∈ made, MadeUp k w f) ∧
      ((sentSpans k w).map Span.withTags).Perm ((receivedFor k w.received).map Span.withTags ++ made.map Span.withTags) := by
  have hR : ∀ r ∈ w.removed.filter (fun r => r.id == k), r ∈ w.removed ∧ r.id = k ∧ ∃ out, r.fate = .emitted out := by
    intro r hr
    obtain ⟨h1, h2⟩ := List.mem_filter.mp hr
    have h2 : r.id = k := by simpa using h2
    exact ⟨h1, h2, h.removed r h1 h2⟩
  obtain ⟨made, _, hm, hp⟩ := parts_sent Span.withTags _ hR (by
    intro r hr out ho
    obtain ⟨h1, rfl, _⟩ := hR r hr
    have ok := (reachable_inv hw).gone r h1
    have hperm := perm_of_held ok rfl (members_nodup hw hn h1 rfl)
    obtain ⟨base, q, hrep, hroot, hcor⟩ := ((removed_spec hw r h1).2 out ho).1
    -- the spans of this part
    have hst : Steady r.tree.spans := by
      intro s hs'
      obtain ⟨m, hm, e⟩ := List.mem_map.mp (hperm.mem_iff.mp (List.mem_map_of_mem hs'))
      have e1 : m.timestamp = s.timestamp := by have := congrArg Span.timestamp e; exact this
      have e2 : m.timings = s.timings := by have := congrArg Span.timings e; exact this
      have e3 : m.duration = s.duration := by have := congrArg Span.duration e; exact this
      obtain ⟨t1, t2⟩ := hs m (((reachable_inv hw).infix_ r h1).subset hm)
      have ea : HasAllTimings m = HasAllTimings s := by unfold HasAllTimings; rw [e2]
      refine ⟨e1 ▸ t1, fun ha => ?_⟩
      obtain ⟨t3, t4, t5⟩ := t2 (ea ▸ ha)
      unfold skew at t5 ⊢
      rw [if_pos (ea ▸ ha), e2] at t5
      rw [e2, e1] at t3
      rw [e2, e3] at t4
      exact ⟨t3, t4, by rw [if_pos ha]; exact t5⟩
    rcases hrep with ⟨p, f, hsp, hfr, hbase, hpw⟩ | ⟨_, rfl⟩
    · have hb : Steady base := by
        intro s hs'
        rcases List.mem_cons.mp (hbase.mem_iff.mp hs') with rfl | hs'
        · obtain ⟨q', hq', e⟩ := hfr.start
          refine ⟨e ▸ (hst q' hq'.1).1, fun ha => ?_⟩
          unfold HasAllTimings at ha
          rw [hfr.timings] at ha
          exact absurd rfl ha.1
        · exact hst s hs'
      have e := steady_output (fun s hs => (hb s hs).1) (fun s hs => (hb s hs).2) hroot.1.1 hcor
      subst e
      refine ⟨[f], by simp, ?_, ?_⟩
      · intro g hg
        rw [List.mem_singleton.mp hg]
        refine fake_madeUp h1 hsp hfr ?_
        cases hh : held f.id r.tree.members with
        | none => rfl
        | some x =>
          exfalso
          obtain ⟨s, hs, hid⟩ := (ok.inv.ids f.id).mpr ((held_isSome _ _).mp (by rw [hh]; rfl))
          have hn : ((f :: r.tree.spans).map Span.id).Nodup := (hbase.map Span.id).nodup_iff.mp (sortedDesc_ids hpw)
          rw [List.map_cons, List.nodup_cons] at hn
          exact hn.1 (List.mem_map.mpr ⟨s, hs, hid⟩)
      · refine (hbase.map _).trans ?_
        rw [List.map_cons]
        exact (List.Perm.cons _ hperm).trans (List.perm_append_singleton _ _).symm
    · have e := steady_output (fun s hs => (hst s hs).1) (fun s hs => (hst s hs).2) hroot.1.1 hcor
      rw [e]
      exact ⟨[], by simp, (fun g hg => absurd hg (by simp)), (by rw [List.map_nil, List.append_nil]; exact hperm)⟩)
  exact ⟨made, hm, hp.trans (List.Perm.append_right _ ((allSent_members hw h).symm.map _))⟩

/-! ## Ids that are sent twice -/

/-- The spans of different parts are different spans that were received. -/
theorem parts_disjoint {w : World} (hw : Reachable w) {k : Id} (hn : ((receivedFor k w.received).map Span.id).Nodup) :
    (w.removed.filter fun r => r.id == k).Pairwise fun r q => ∀ a ∈ r.tree.members, ∀ b ∈ q.tree.members, a.id ≠ b.id := by
  have inv := reachable_inv hw
  have h1 := inv.conserved.filter fun s => s.trace == k
  have e0 : (w.received.filter fun s => decide (Traced s)).filter (fun s => s.trace == k) = receivedFor k w.received := by
    rw [List.filter_filter]
    unfold receivedFor
    exact List.filter_congr fun s _ => Bool.and_comm _ _
  rw [e0, List.filter_append, List.filter_append, removed_members hw k w.removed fun r hr => hr] at h1
  have h2 := (h1.map Span.id).nodup_iff.mp hn
  have h3 : (((w.removed.filter fun r => r.id == k).flatMap fun r => r.tree.members).map Span.id).Nodup :=
    (((List.sublist_append_right _ _).trans (List.sublist_append_left _ _)).map Span.id).nodup h2
  exact (List.pairwise_flatMap.mp (List.pairwise_map.mp h3)).2

/-- A span that is sent was made up, or spans with its id were received in its part. -/
theorem sent_origin {w : World} (hw : Reachable w) {r : Removal} (hr : r ∈ w.removed) {out : List Span} (ho : r.fate = .emitted out) {s : Span} (hs : s ∈ out) :
    (∃ f, MadeUp r.id w f ∧ untimed f = untimed s) ∨ ∃ m ∈ r.tree.members, m.id = s.id := by
  have ok := (reachable_inv hw).gone r hr
  obtain ⟨fake, _, f2, f3, _⟩ := finished_spans ok ((removed_spec hw r hr).2 out ho).1
  obtain ⟨x, hx, e⟩ := List.mem_map.mp (f3.mem_iff.mp (List.mem_map_of_mem hs))
  rcases List.mem_append.mp hx with hx | hx
  · obtain ⟨⟨p, hsp, hf⟩, hh⟩ := f2 x hx
    exact .inl ⟨x, fake_madeUp hr hsp hf hh, e⟩
  · obtain ⟨m, hm, e'⟩ := (ok.inv.ids x.id).mp ⟨x, hx, rfl⟩
    exact .inr ⟨m, hm, e'.trans (untimed_eq e).1⟩

theorem emittedOf_cons {r : Removal} {R : List Removal} :
    emittedOf (r :: R) = emittedOf R ∧ (∀ out, r.fate ≠ .emitted out) ∨ ∃ out, r.fate = .emitted out ∧ emittedOf (r :: R) = out :: emittedOf R := by
  cases h : r.fate <;> simp [emittedOf, h]

/-- C136, in part: if the spans of a trace have different ids, an id is sent twice only if one of the two is a root that was made up; and never twice in one part. Missing: the other case, which
is possible (`C136_fails`). -/
theorem C136_partial {w : World} (hw : Reachable w) {k : Id} (hn : ((receivedFor k w.received).map Span.id).Nodup) :
    (∀ out ∈ sentFor k w, (out.map Span.id).Nodup) ∧
    (sentFor k w).Pairwise fun o o' => ∀ a ∈ o, ∀ b ∈ o', a.id = b.id → ∃ f, MadeUp k w f ∧ (untimed f = untimed a ∨ untimed f = untimed b) := by
  constructor
  · intro out ho
    obtain ⟨r, hr, e⟩ := List.mem_filterMap.mp ho
    obtain ⟨h1, _⟩ := List.mem_filter.mp hr
    have ho : r.fate = .emitted out := by
      split at e
      · next h => rw [h, Option.some.inj e]
      · cases e
    obtain ⟨_, _, _, _, h⟩ := finished_spans ((reachable_inv hw).gone r h1) ((removed_spec hw r h1).2 out ho).1
    exact h
  · have hd := parts_disjoint hw hn
    have hR : ∀ r ∈ w.removed.filter (fun r => r.id == k), r ∈ w.removed ∧ r.id = k := by
      intro r hr
      obtain ⟨h1, h2⟩ := List.mem_filter.mp hr
      exact ⟨h1, by simpa using h2⟩
    unfold sentFor emittedOf
    rw [List.pairwise_filterMap]
    refine hd.imp_of_mem ?_
    intro r q hr hq hdis o ho o' ho' a ha b hb hab
    obtain ⟨hr1, rfl⟩ := hR r hr
    obtain ⟨hq1, hq2⟩ := hR q hq
    have fate : ∀ {x : Removal} {y : List Span}, (match x.fate with | .emitted spans => some spans | _ => none) = some y → x.fate = .emitted y := by
      intro x y e
      split at e
      · next h => rw [h, Option.some.inj e]
      · cases e
    rcases sent_origin hw hr1 (fate ho) ha with ⟨f, hf, e⟩ | ⟨m, hm, e⟩
    · exact ⟨f, hf, .inl e⟩
    rcases sent_origin hw hq1 (fate ho') hb with ⟨f, hf, e'⟩ | ⟨m', hm', e'⟩
    · exact ⟨f, hq2 ▸ hf, .inr e'⟩
    exact absurd (e.trans (hab.trans e'.symm)) (hdis m hm m' hm')

/-- C136: so if no root was made up, no id is sent twice. -/
theorem C136_told {w : World} (hw : Reachable w) {k : Id} (hn : ((receivedFor k w.received).map Span.id).Nodup) (hf : ∀ s ∈ sentSpans k w, s.name ≠ b!"fake-root") :
    ((sentSpans k w).map Span.id).Nodup := by
  obtain ⟨h1, h2⟩ := C136_partial hw hn
  refine List.pairwise_map.mpr (List.pairwise_flatten.mpr ⟨fun out ho => List.pairwise_map.mp (h1 out ho), h2.imp_of_mem ?_⟩)
  intro o o' ho ho' h a ha b hb e
  obtain ⟨f, ⟨_, _, _, _, hfr, _⟩, e'⟩ := h a ha b hb e
  rcases e' with e' | e'
  · exact hf a (List.mem_flatten.mpr ⟨o, ho, ha⟩) ((untimed_eq e').2.2.1.symm.trans hfr.name)
  · exact hf b (List.mem_flatten.mpr ⟨o', ho', hb⟩) ((untimed_eq e').2.2.1.symm.trans hfr.name)

/-- The ids that are sent with a part of a trace: those of its spans, and that of the
parent that all of several spans without a parent in this part have. -/
def PartShows (r : Removal) (i : Id) : Prop :=
  (∃ out, r.fate = .emitted out) ∧ ((∃ m ∈ r.tree.members, m.id = i) ∨ SharedParent r.tree.spans i)

theorem partShows_iff {w : World} (hw : Reachable w) {r : Removal} (hr : r ∈ w.removed) {out : List Span}
    (ho : r.fate = .emitted out) (i : Id) : i ∈ out.map Span.id ↔ PartShows r i := by
  have ok := (reachable_inv hw).gone r hr
  obtain ⟨base, b0, hrep, _, hcor⟩ := ((removed_spec hw r hr).2 out ho).1
  rw [corrected_map hcor Span.id (fun _ _ _ => rfl)]
  have hids : i ∈ r.tree.spans.map Span.id ↔ ∃ m ∈ r.tree.members, m.id = i := by
    rw [← ok.inv.ids i, List.mem_map]
  unfold PartShows
  rw [← hids]
  rcases hrep with ⟨p, f, hsp, hfr, hperm, _⟩ | ⟨hno, rfl⟩
  · rw [(hperm.map Span.id).mem_iff, List.map_cons, List.mem_cons, hfr.id]
    constructor
    · rintro (rfl | h)
      · exact ⟨⟨out, ho⟩, .inr hsp⟩
      · exact ⟨⟨out, ho⟩, .inl h⟩
    · rintro ⟨_, h | h⟩
      · exact .inr h
      · left
        obtain ⟨⟨a, b, ha, hb, hne⟩, hp⟩ := hsp
        exact (h.2 a ha).symm.trans (hp a ha)
  · exact ⟨fun h => ⟨⟨out, ho⟩, .inl h⟩, fun h => h.2.elim id fun h => absurd h (hno i)⟩

/-- C136, exactly: an id is sent twice for a trace iff two parts of the trace show it:
each has a span with this id, or several spans without a parent in this part, all with this parent. -/
theorem C136_exact {w : World} (hw : Reachable w) (k : Id) :
    ((sentSpans k w).map Span.id).Nodup ↔
      (w.removed.filter fun r => r.id == k).Pairwise fun r r' => ∀ i, ¬ (PartShows r i ∧ PartShows r' i) := by
  unfold sentSpans sentFor
  rw [List.Nodup, List.pairwise_map, List.pairwise_flatten]
  have hmem : ∀ r ∈ w.removed.filter (fun r => r.id == k), r ∈ w.removed := fun r hr => (List.mem_filter.mp hr).1
  generalize w.removed.filter (fun r => r.id == k) = R at hmem
  have hfirst : ∀ l ∈ emittedOf R, l.Pairwise fun a b => a.id ≠ b.id := by
    intro l hl
    obtain ⟨r, hr, hf⟩ := mem_emittedOf.mp hl
    obtain ⟨_, _, _, _, h⟩ := finished_spans ((reachable_inv hw).gone r (hmem r hr)) ((removed_spec hw r (hmem r hr)).2 l hf).1
    exact List.pairwise_map.mp h
  refine (and_iff_right hfirst).trans ?_
  unfold emittedOf
  rw [List.pairwise_filterMap]
  refine List.Pairwise.iff_of_mem fun {r r'} hr hr' => ?_
  constructor
  · rintro h i ⟨h1, h2⟩
    obtain ⟨out, ho⟩ := h1.1
    obtain ⟨out', ho'⟩ := h2.1
    obtain ⟨a, ha, ea⟩ := List.mem_map.mp ((partShows_iff hw (hmem r hr) ho i).mpr h1)
    obtain ⟨b, hb, eb⟩ := List.mem_map.mp ((partShows_iff hw (hmem r' hr') ho' i).mpr h2)
    exact h out (by rw [ho]) out' (by rw [ho']) a ha b hb (ea.trans eb.symm)
  · intro h out ho out' ho' a ha b hb e
    have fo : r.fate = .emitted out := by
      split at ho
      · next h => rw [h, Option.some.inj ho]
      · cases ho
    have fo' : r'.fate = .emitted out' := by
      split at ho'
      · next h => rw [h, Option.some.inj ho']
      · cases ho'
    exact h a.id ⟨(partShows_iff hw (hmem r hr) fo _).mp (List.mem_map_of_mem ha), (partShows_iff hw (hmem r' hr') fo' _).mp (e ▸ List.mem_map_of_mem hb)⟩

open Classical in
/-- How often an id is sent for a trace: once for every part that shows it. -/
theorem C136_count {w : World} (hw : Reachable w) (k i : Id) :
    ((sentSpans k w).map Span.id).count i =
      (w.removed.filter fun r => r.id == k).countP fun r => decide (PartShows r i) := by
  unfold sentSpans sentFor
  have hmem : ∀ r ∈ w.removed.filter (fun r => r.id == k), r ∈ w.removed := fun r hr => (List.mem_filter.mp hr).1
  generalize w.removed.filter (fun r => r.id == k) = R at hmem
  induction R with
  | nil => rfl
  | cons r R ih =>
    have ih := ih fun q hq => hmem q (List.mem_cons_of_mem _ hq)
    have hr := hmem r List.mem_cons_self
    rw [List.countP_cons, ← ih]
    by_cases he : ∃ out, r.fate = .emitted out
    · obtain ⟨out, ho⟩ := he
      have e : emittedOf (r :: R) = out :: emittedOf R := by simp [emittedOf, ho]
      obtain ⟨_, _, _, _, hnd⟩ := finished_spans ((reachable_inv hw).gone r hr) ((removed_spec hw r hr).2 out ho).1
      rw [e, List.flatten_cons, List.map_append, List.count_append, hnd.count, Nat.add_comm]
      simp only [partShows_iff hw hr ho, decide_eq_true_eq]
    · have e : emittedOf (r :: R) = emittedOf R := by
        unfold emittedOf
        refine List.filterMap_cons_none ?_
        split
        · next out h => exact absurd ⟨out, h⟩ he
        · rfl
      rw [e, if_neg (by simpa using fun h : PartShows r i => he h.1), Nat.add_zero]

/-! ## Witnesses -/

/-- A sweep at a time, over a collector in which not more than one trace remains. -/
def sweepAt (c : Collector) (now : Time) : TickInput :=
  let i0 : TickInput := ⟨now, now, fun _ => now, c.traces.toList, [], []⟩
  let i1 : TickInput := { i0 with sorted := (c.finishLoop i0).1.traces.toList }
  { i1 with blOrder := (c.shed i1).1.blacklist.toList }

theorem sweepAt_valid (c : Collector) (now : Time) (h : (sweepAt c now).sorted.length ≤ 1) : (sweepAt c now).Valid c := by
  refine ⟨List.Perm.refl _, List.Perm.refl _, ?_, List.Perm.refl _, Int.le_refl _⟩
  match hs : (sweepAt c now).sorted, h with
  | [], _ => exact List.Pairwise.nil
  | [_], _ => exact List.pairwise_singleton _ _

/-- A client span whose server was ahead by 5000 ns, and a span below it, without timings. -/
def aheadParent : Span := { id := 1, trace := 7, timestamp := 1600000000000000000, duration := 2000, timings := { CS := 1600000000000000000, CR := 1600000000000002000, SR := 1600000000000005500, SS := 1600000000000006500 } }
def aheadChild : Span := { id := 2, parent := 1, trace := 7, timestamp := 1600000000000005700, duration := 600 }

/-- Both are received in time. -/
def inTime : World :=
  let w := (World.receive { clock := 0 } 0 0 aheadParent).receive 0 0 aheadChild
  w.tick (sweepAt w.c 8000000000)

/-- The one below is received late. -/
def tooLate : World :=
  let w := World.receive { clock := 0 } 0 0 aheadParent
  let w := w.tick (sweepAt w.c 8000000000)
  let w := w.receive 8000000000 8000000000 aheadChild
  w.tick (sweepAt w.c 16000000000)

theorem inTime_reachable : Reachable inTime :=
  .tick _ (.receive _ _ _ (.receive _ _ _ (.init 0) (by decide) (by decide)) (by decide) (by decide)) (sweepAt_valid _ _ (by decide +kernel)) (by decide +kernel)

theorem tooLate_reachable : Reachable tooLate :=
  .tick _ (.receive _ _ _ (.tick _ (.receive _ _ _ (.init 0) (by decide) (by decide)) (sweepAt_valid _ _ (by decide +kernel)) (by decide +kernel)) (by decide +kernel) (by decide))
    (sweepAt_valid _ _ (by decide +kernel)) (by decide +kernel)

def wasEmitted (r : Removal) : Bool := match r.fate with
  | .emitted _ => true
  | _ => false

theorem allSent_of {k : Id} {w : World} (h1 : w.c.traces[k]?.isNone = true) (h2 : w.refused.length = 0) (h3 : w.removed.all wasEmitted = true) : AllSent k w := by
  refine ⟨by simpa using h1, fun s hs => ?_, fun r hr _ => ?_⟩
  · rw [List.length_eq_zero_iff.mp h2] at hs
    cases hs
  · have := List.all_eq_true.mp h3 r hr
    unfold wasEmitted at this
    split at this
    · next out h => exact ⟨out, h⟩
    · cases this

/-- C135, as stated, is false: the same spans, all of them sent; the start of the second one depends on whether it arrived with the first. -/
theorem C135_fails : Reachable inTime ∧ Reachable tooLate ∧ AllSent 7 inTime ∧ AllSent 7 tooLate ∧
    receivedFor 7 inTime.received = [aheadParent, aheadChild] ∧ receivedFor 7 tooLate.received = [aheadParent, aheadChild] ∧
    (sentSpans 7 inTime).map (fun s => (s.id, s.timestamp)) = [(2, 1600000000000000700), (1, 1600000000000000000)] ∧
    (sentSpans 7 tooLate).map (fun s => (s.id, s.timestamp)) = [(1, 1600000000000000000), (2, 1600000000000005700)] :=
  ⟨inTime_reachable, tooLate_reachable, allSent_of (by decide +kernel) (by decide +kernel) (by decide +kernel), allSent_of (by decide +kernel) (by decide +kernel) (by decide +kernel),
    rfl, rfl, by decide +kernel, by decide +kernel⟩

/-- Two spans below one that is not there yet, and this one. -/
def orphanA : Span := { id := 1, parent := 5, trace := 7, timestamp := 1600000000000000000, duration := 1000 }
def orphanB : Span := { id := 2, parent := 5, trace := 7, timestamp := 1600000000000001000, duration := 1000 }
def lateParent : Span := { id := 5, trace := 7, name := b!"get", timestamp := 1600000000000000000, duration := 3000 }

/-- The parent is received late. -/
def parentLate : World :=
  let w := (World.receive { clock := 0 } 0 0 orphanA).receive 0 0 orphanB
  let w := w.tick (sweepAt w.c 8000000000)
  let w := w.receive 8000000000 8000000000 lateParent
  w.tick (sweepAt w.c 16000000000)

theorem parentLate_reachable : Reachable parentLate :=
  .tick _ (.receive _ _ _ (.tick _ (.receive _ _ _ (.receive _ _ _ (.init 0) (by decide) (by decide)) (by decide) (by decide)) (sweepAt_valid _ _ (by decide +kernel)) (by decide +kernel))
    (by decide +kernel) (by decide)) (sweepAt_valid _ _ (by decide +kernel)) (by decide +kernel)

theorem parentLate_received : receivedFor 7 parentLate.received = [orphanA, orphanB, lateParent] := rfl

theorem parentLate_sent : AllSent 7 parentLate := allSent_of (by decide +kernel) (by decide +kernel) (by decide +kernel)

/-- C136, as stated, is false: three spans with different ids are received; the id of the third is sent twice, first for a root that was made up. -/
theorem C136_fails : Reachable parentLate ∧ ((receivedFor 7 parentLate.received).map Span.id).Nodup ∧
    (sentSpans 7 parentLate).map (fun s => (s.id, s.name)) = [(5, b!"fake-root"), (2, []), (1, []), (5, b!"get")] :=
  ⟨parentLate_reachable, by decide +kernel, by decide +kernel⟩

/-- `C135_steady` for this history: everything that was received, as it was, and one root that was made up. -/
theorem C135_example : ∃ made : List Span, (∀ f ∈ made, MadeUp 7 parentLate f) ∧ made.length = 1 ∧
    ((sentSpans 7 parentLate).map Span.withTags).Perm ([orphanA, orphanB, lateParent].map Span.withTags ++ made.map Span.withTags) := by
  obtain ⟨made, h1, h2⟩ := C135_steady parentLate_reachable (k := 7) (by decide +kernel) parentLate_sent (by
    rw [parentLate_received]
    intro s hs
    simp only [List.mem_cons, List.not_mem_nil, or_false] at hs
    rcases hs with rfl | rfl | rfl <;> exact ⟨by decide, fun h => absurd h (by decide)⟩)
  rw [parentLate_received] at h2
  refine ⟨made, h1, ?_, h2⟩
  have h3 := h2.length_eq
  rw [List.length_map, List.length_append, List.length_map, List.length_map] at h3
  have h4 : (sentSpans 7 parentLate).length = 4 := by decide +kernel
  rw [h4] at h3
  simp only [List.length_cons, List.length_nil] at h3
  omega

/-- `C136_told` for the other history: it was sent in two parts, and no root was made up. -/
theorem C136_example : ((sentSpans 7 tooLate).map Span.id).Nodup ∧ (sentFor 7 tooLate).length = 2 :=
  ⟨C136_told tooLate_reachable (by decide +kernel) (by
    have : ((sentSpans 7 tooLate).map Span.name).all (fun n => n != b!"fake-root") = true := by decide +kernel
    intro s hs e
    have := List.all_eq_true.mp this _ (List.mem_map_of_mem hs)
    rw [e] at this
    exact absurd this (by decide)), by decide +kernel⟩

/-! ## Spans that are received again -/

/-- The spans of a list with this id, without roots that were made up. -/
def toldSpans (i : Id) (l : List Span) : List Span := l.filter fun s => s.id == i && s.name != b!"fake-root"

/-- In one part, a span is sent at most once, and only if it was received. -/
theorem told_part {w : World} (hw : Reachable w) (i : Id) {r : Removal} (hr : r ∈ w.removed) {out : List Span} (ho : r.fate = .emitted out) :
    (toldSpans i out).length ≤ 1 ∧ (toldSpans i out).length ≤ (r.tree.members.filter fun s => s.id == i).length := by
  obtain ⟨_, _, _, _, hn⟩ := finished_spans ((reachable_inv hw).gone r hr) ((removed_spec hw r hr).2 out ho).1
  have hn' : ((toldSpans i out).map Span.id).Nodup := ((List.filter_sublist).map _).nodup hn
  have hi : ∀ s ∈ toldSpans i out, s.id = i := by
    intro s hs
    have := (List.mem_filter.mp hs).2
    simp only [Bool.and_eq_true, beq_iff_eq] at this
    exact this.1
  match h : toldSpans i out with
  | [] => exact ⟨by simp, by simp⟩
  | [s] =>
    refine ⟨by simp, ?_⟩
    have hs : s ∈ toldSpans i out := by rw [h]; simp
    obtain ⟨hs1, hs2⟩ := List.mem_filter.mp hs
    have hname : s.name ≠ b!"fake-root" := by
      simp only [Bool.and_eq_true, bne_iff_ne] at hs2
      exact hs2.2
    rcases sent_origin hw hr ho hs1 with ⟨f, ⟨_, _, _, _, hf, _⟩, e⟩ | ⟨m, hm, e⟩
    · exact absurd ((untimed_eq e).2.2.1.symm.trans hf.name) hname
    · exact List.length_pos_of_mem (List.mem_filter.mpr ⟨hm, by simpa using e.trans (hi s hs)⟩)
  | a :: b :: l =>
    rw [h] at hn' hi
    have h1 := hi a (by simp)
    have h2 := hi b (by simp)
    simp [h1, h2] at hn'

/-- C138, in part: a span is sent at most once in each part of its trace, and not more often than it was received. Missing: that it is sent once if it was received again after its trace was
sent, which is not so (`C138_fails`). -/
theorem C138_partial {w : World} (hw : Reachable w) (k i : Id) :
    (toldSpans i (sentSpans k w)).length ≤ ((receivedFor k w.received).filter fun s => s.id == i).length ∧ ∀ out ∈ sentFor k w, (toldSpans i out).length ≤ 1 := by
  constructor
  · have inv := reachable_inv hw
    have h1 := inv.conserved.filter fun s => s.trace == k
    have e0 : (w.received.filter fun s => decide (Traced s)).filter (fun s => s.trace == k) = receivedFor k w.received := by
      rw [List.filter_filter]
      unfold receivedFor
      exact List.filter_congr fun s _ => Bool.and_comm _ _
    rw [e0, List.filter_append, List.filter_append, removed_members hw k w.removed fun r hr => hr] at h1
    have h2 := (h1.filter fun s => s.id == i).length_eq
    rw [List.filter_append, List.filter_append, List.length_append, List.length_append] at h2
    have h3 : ∀ R : List Removal, (∀ r ∈ R, r ∈ w.removed) → (toldSpans i (emittedOf R).flatten).length ≤ ((R.flatMap fun r => r.tree.members).filter fun s => s.id == i).length := by
      intro R hR
      induction R with
      | nil => exact Nat.le_refl _
      | cons r R ih =>
        have ih := ih fun q hq => hR q (List.mem_cons_of_mem _ hq)
        rw [List.flatMap_cons, List.filter_append, List.length_append]
        rcases emittedOf_cons (r := r) (R := R) with ⟨e, _⟩ | ⟨out, ho, e⟩
        · rw [e]; omega
        · rw [e, List.flatten_cons]
          unfold toldSpans at ih ⊢
          rw [List.filter_append, List.length_append]
          have := (told_part hw i (hR r (by simp)) ho).2
          unfold toldSpans at this
          omega
    have := h3 (w.removed.filter fun r => r.id == k) fun r hr => (List.mem_filter.mp hr).1
    unfold sentSpans sentFor
    omega
  · intro out ho
    obtain ⟨r, hr, e⟩ := List.mem_filterMap.mp ho
    obtain ⟨h1, _⟩ := List.mem_filter.mp hr
    refine (told_part hw i h1 ?_).1
    split at e
    · next h => rw [h, Option.some.inj e]
    · cases e

/-- A span is received, and again after its trace was sent: Kafka delivers it again after a rebalance. -/
def receivedAgain : World :=
  let w := World.receive { clock := 0 } 0 0 lateParent
  let w := w.tick (sweepAt w.c 8000000000)
  let w := w.receive 8000000000 8000000000 lateParent
  w.tick (sweepAt w.c 16000000000)

/-- C138, as stated, is false: it is sent twice. -/
theorem C138_fails : Reachable receivedAgain ∧ receivedFor 7 receivedAgain.received = [lateParent, lateParent] ∧
    (sentFor 7 receivedAgain).map (fun t => t.map fun s => (s.id, s.timestamp)) = [[(5, 1600000000000000000)], [(5, 1600000000000000000)]] :=
  ⟨.tick _ (.receive _ _ _ (.tick _ (.receive _ _ _ (.init 0) (by decide) (by decide)) (sweepAt_valid _ _ (by decide +kernel)) (by decide +kernel)) (by decide +kernel) (by decide))
    (sweepAt_valid _ _ (by decide +kernel)) (by decide +kernel), rfl, by decide +kernel⟩

/-- A span is received twice before its trace is sent: it is sent once. -/
def receivedTwice : World :=
  let w := (World.receive { clock := 0 } 0 0 lateParent).receive 0 0 lateParent
  w.tick (sweepAt w.c 8000000000)

theorem C138_example : Reachable receivedTwice ∧ receivedFor 7 receivedTwice.received = [lateParent, lateParent] ∧
    (sentFor 7 receivedTwice).map (fun t => t.map fun s => (s.id, s.timestamp)) = [[(5, 1600000000000000000)]] :=
  ⟨.tick _ (.receive _ _ _ (.receive _ _ _ (.init 0) (by decide) (by decide)) (by decide) (by decide)) (sweepAt_valid _ _ (by decide +kernel)) (by decide +kernel), rfl, by decide +kernel⟩

end Verif
