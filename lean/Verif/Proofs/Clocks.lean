import Verif.Spec.Clocks
import Verif.Props.Shape

/-!
# Helper lemmas for C117
-/

namespace Verif

open Spec

/-! ## Merging what caller and callee say -/

/-- What is known about a call: from the caller if `c`, from the callee if `s`. -/
structure Known (S : Story) (id : Id) (c s : Prop) (t : Timings) : Prop where
  cs : c → t.CS.toInt = S.start id + S.caller id
  cr : c → t.CR.toInt = S.stop id + S.caller id
  ss : s → t.SS.toInt = S.leave id + S.callee id
  sr : s → t.SR.toInt = S.arrive id + S.callee id

theorem firstValid_pos {a b : Timestamp} (h : 0 < a.toInt) : firstValid a b = a := by
  unfold firstValid
  rw [if_pos (by rw [Int64.lt_iff_toInt_lt]; exact h)]

theorem known_client {S : Story} {home : Int} {l : List Span} (ht : S.Told home l) {c s : Prop} {a b : Span} (h : Known S a.id c s a.timings) (hid : b.id = a.id) (hs : S.shared a.id = true)
    (hb : S.ClientReport b) : Known S a.id True s (merged a b).timings := by
  have hn : ¬ IsServer b := by
    rintro (h' | h')
    · rw [hb.sr] at h'; exact absurd h' (by decide)
    · rw [hb.ss] at h'; exact absurd h' (by decide)
  have hd := ht.dated a.id hs
  have e1 := hb.cs
  have e2 := hb.cr
  rw [hid] at e1 e2
  have p1 : 0 < b.timings.CS.toInt := by rw [e1]; exact (hd _ (by simp)).1
  have p2 : 0 < b.timings.CR.toInt := by rw [e2]; exact (hd _ (by simp)).1
  unfold merged
  simp only [if_neg hn, firstValid_pos p1, firstValid_pos p2]
  exact ⟨fun _ => e1, fun _ => e2, h.ss, h.sr⟩

theorem known_server {S : Story} {home : Int} {l : List Span} (ht : S.Told home l) {c s : Prop} {a b : Span} (h : Known S a.id c s a.timings) (hid : b.id = a.id) (hs : S.shared a.id = true)
    (hb : S.ServerReport b) : Known S a.id c True (merged a b).timings := by
  have hd := ht.dated a.id hs
  have e1 := hb.ss
  have e2 := hb.sr
  rw [hid] at e1 e2
  have p1 : 0 < b.timings.SS.toInt := by rw [e1]; exact (hd _ (by simp)).1
  have p2 : 0 < b.timings.SR.toInt := by rw [e2]; exact (hd _ (by simp)).1
  have hn : IsServer b := .inl (by rw [Int64.lt_iff_toInt_lt]; exact p2)
  unfold merged
  simp only [if_pos hn, firstValid_pos p1, firstValid_pos p2]
  exact ⟨h.cs, h.cr, fun _ => e1, fun _ => e2⟩

theorem known_fold {S : Story} {home : Int} {l : List Span} (ht : S.Told home l) {id : Id} (hs : S.shared id = true) :
    ∀ (rest : List Span) (a : Span) (c s : Prop), a.id = id → Known S id c s a.timings → (∀ b ∈ rest, b.id = id ∧ (S.ClientReport b ∨ S.ServerReport b)) →
      Known S id (c ∨ ∃ b ∈ rest, S.ClientReport b) (s ∨ ∃ b ∈ rest, S.ServerReport b) (rest.foldl merged a).timings
  | [], a, c, s, _, h, _ => by
    refine ⟨?_, ?_, ?_, ?_⟩ <;> rintro (h' | ⟨_, h', _⟩)
    · exact h.cs h'
    · cases h'
    · exact h.cr h'
    · cases h'
    · exact h.ss h'
    · cases h'
    · exact h.sr h'
    · cases h'
  | b :: rest, a, c, s, ha, h, hall => by
    obtain ⟨hb, hk⟩ := hall b (by simp)
    subst ha
    have hid : (merged a b).id = a.id := rfl
    rw [List.foldl_cons]
    have key : ∀ {c' s' : Prop}, (c ∨ S.ClientReport b → c') → (s ∨ S.ServerReport b → s') → Known S a.id c' s' (merged a b).timings →
        Known S a.id (c ∨ ∃ x ∈ b :: rest, S.ClientReport x) (s ∨ ∃ x ∈ b :: rest, S.ServerReport x) (rest.foldl merged (merged a b)).timings := by
      intro c' s' hc' hs' hm
      have := known_fold ht hs rest (merged a b) c' s' hid hm fun x hx => hall x (by simp [hx])
      have hC : (c ∨ ∃ x ∈ b :: rest, S.ClientReport x) → (c' ∨ ∃ x ∈ rest, S.ClientReport x) := by
        rintro (h | ⟨x, hx, h⟩)
        · exact .inl (hc' (.inl h))
        · rcases List.mem_cons.mp hx with rfl | hx
          · exact .inl (hc' (.inr h))
          · exact .inr ⟨x, hx, h⟩
      have hS : (s ∨ ∃ x ∈ b :: rest, S.ServerReport x) → (s' ∨ ∃ x ∈ rest, S.ServerReport x) := by
        rintro (h | ⟨x, hx, h⟩)
        · exact .inl (hs' (.inl h))
        · rcases List.mem_cons.mp hx with rfl | hx
          · exact .inl (hs' (.inr h))
          · exact .inr ⟨x, hx, h⟩
      exact ⟨fun h => this.cs (hC h), fun h => this.cr (hC h), fun h => this.ss (hS h), fun h => this.sr (hS h)⟩
    -- a report is not from both sides
    have excl : ¬ (S.ClientReport b ∧ S.ServerReport b) := by
      rintro ⟨h1, h2⟩
      have := (ht.dated a.id hs (S.start a.id + S.caller a.id) (by simp)).1
      have e := h1.cs
      rw [h2.cs, hb] at e
      have : (0 : Int64).toInt = 0 := rfl
      omega
    rcases hk with hk | hk
    · exact key (c' := True) (s' := s) (fun _ => trivial) (fun h => h.elim id fun h => absurd ⟨hk, h⟩ excl) (known_client ht h hb hs hk)
    · exact key (c' := c) (s' := True) (fun h => h.elim id fun h => absurd ⟨h, hk⟩ excl) (fun _ => trivial) (known_server ht h hb hs hk)

theorem fold_timestamp (rest : List Span) (a : Span) : (rest.foldl merged a).timestamp = a.timestamp ∧ (rest.foldl merged a).duration = a.duration := by
  induction rest generalizing a with
  | nil => exact ⟨rfl, rfl⟩
  | cons b rest ih => rw [List.foldl_cons]; exact ih (merged a b)

theorem fold_parent {p : Id} (rest : List Span) (a : Span) (ha : a.parent = p) (h : ∀ b ∈ rest, b.parent = p) : (rest.foldl merged a).parent = p := by
  induction rest generalizing a with
  | nil => exact ha
  | cons b rest ih =>
    rw [List.foldl_cons]
    refine ih _ ?_ fun x hx => h x (by simp [hx])
    show (if a.parent = 0 then b.parent else a.parent) = p
    split
    · exact h b (by simp)
    · exact ha

theorem fold_no_server (rest : List Span) (a : Span) (ha : a.timings.SS = 0) (h : ∀ b ∈ rest, b.timings.SS = 0) : (rest.foldl merged a).timings.SS = 0 := by
  induction rest generalizing a with
  | nil => exact ha
  | cons b rest ih =>
    rw [List.foldl_cons]
    refine ih _ ?_ fun x hx => h x (by simp [hx])
    show (if IsServer b then _ else _ : Timings).SS = 0
    split
    · show firstValid b.timings.SS a.timings.SS = 0
      rw [h b (by simp), ha]; rfl
    · exact ha

theorem fold_no_client (rest : List Span) (a : Span) (ha : a.timings.CS = 0) (h : ∀ b ∈ rest, b.timings.CS = 0) : (rest.foldl merged a).timings.CS = 0 := by
  induction rest generalizing a with
  | nil => exact ha
  | cons b rest ih =>
    rw [List.foldl_cons]
    refine ih _ ?_ fun x hx => h x (by simp [hx])
    show (if IsServer b then _ else _ : Timings).CS = 0
    split
    · exact ha
    · show firstValid b.timings.CS a.timings.CS = 0
      rw [h b (by simp), ha]; rfl

/-- What a trace holds about a span of the story. -/
structure Holding (S : Story) (s : Span) : Prop where
  parent : s.parent = S.parent s.id
  shared : S.shared s.id = true → HasAllTimings s ∧ s.timings.CS.toInt = S.start s.id + S.caller s.id ∧ s.timings.CR.toInt = S.stop s.id + S.caller s.id ∧
    s.timings.SS.toInt = S.leave s.id + S.callee s.id ∧ s.timings.SR.toInt = S.arrive s.id + S.callee s.id
  lone : S.shared s.id = false → ¬ HasAllTimings s ∧ s.timestamp.toInt = S.start s.id + S.caller s.id ∧ s.duration.toInt = S.stop s.id - S.start s.id ∧
    S.callee s.id = S.caller s.id

theorem holding {S : Story} {home : Int} {l : List Span} (ht : S.Told home l) {x : Span} (hh : held x.id l = some x.withTags) : Holding S x := by
  unfold held at hh
  split at hh
  · cases hh
  next a rest hf =>
  have hmem : ∀ b ∈ a :: rest, b ∈ l ∧ b.id = x.id := by
    intro b hb
    rw [← hf, List.mem_filter] at hb
    exact ⟨hb.1, by simpa using hb.2⟩
  have hx := Option.some.inj hh
  have ha := hmem a (by simp)
  have hrest : ∀ b ∈ rest, b ∈ l ∧ b.id = x.id := fun b hb => hmem b (by simp [hb])
  have eT : (rest.foldl merged a.withTags).timings = x.timings := by rw [hx]; rfl
  have ePar : (rest.foldl merged a.withTags).parent = x.parent := by rw [hx]; rfl
  have eTs : (rest.foldl merged a.withTags).timestamp = x.timestamp := by rw [hx]; rfl
  have eDu : (rest.foldl merged a.withTags).duration = x.duration := by rw [hx]; rfl
  have zero : (0 : Int64).toInt = 0 := rfl
  refine ⟨?_, fun hs => ?_, fun hs => ?_⟩
  · rw [← ePar]
    exact fold_parent rest _ (by show a.parent = _; rw [ht.parents a ha.1, ha.2]) fun b hb => by rw [ht.parents b (hrest b hb).1, (hrest b hb).2]
  · have hk : Known S x.id (S.ClientReport a) (S.ServerReport a) a.withTags.timings :=
      ⟨fun h => ha.2 ▸ h.cs, fun h => ha.2 ▸ h.cr, fun h => ha.2 ▸ h.ss, fun h => ha.2 ▸ h.sr⟩
    have := known_fold ht hs rest a.withTags _ _ (show a.id = _ from ha.2) hk fun b hb =>
      ⟨(hrest b hb).2, ht.halves b (hrest b hb).1 (by rw [(hrest b hb).2]; exact hs)⟩
    rw [eT] at this
    obtain ⟨⟨c, hc, hcid, hcr⟩, ⟨d, hd, hdid, hdr⟩⟩ := ht.both x.id hs
    have hin : ∀ y ∈ l, y.id = x.id → y ∈ a :: rest := by
      intro y hy e
      rw [← hf, List.mem_filter]
      exact ⟨hy, by simpa using e⟩
    have hC : S.ClientReport a ∨ ∃ b ∈ rest, S.ClientReport b := by
      rcases List.mem_cons.mp (hin c hc hcid) with rfl | h
      · exact .inl hcr
      · exact .inr ⟨c, h, hcr⟩
    have hD : S.ServerReport a ∨ ∃ b ∈ rest, S.ServerReport b := by
      rcases List.mem_cons.mp (hin d hd hdid) with rfl | h
      · exact .inl hdr
      · exact .inr ⟨d, h, hdr⟩
    have v1 := this.cs hC
    have v2 := this.cr hC
    have v3 := this.ss hD
    have v4 := this.sr hD
    have dd := ht.dated x.id hs
    have d1 := (dd _ (by simp : S.start x.id + S.caller x.id ∈ _)).1
    have d2 := (dd (S.stop x.id + S.caller x.id) (by simp)).1
    have d3 := (dd (S.leave x.id + S.callee x.id) (by simp)).1
    have d4 := (dd (S.arrive x.id + S.callee x.id) (by simp)).1
    refine ⟨⟨?_, ?_, ?_, ?_⟩, v1, v2, v3, v4⟩ <;> intro e
    · rw [e] at v1; omega
    · rw [e] at v2; omega
    · rw [e] at v3; omega
    · rw [e] at v4; omega
  · have hs' : S.shared a.id = false := by rw [ha.2]; exact hs
    have hl := ht.lone a ha.1 hs'
    refine ⟨?_, ?_, ?_, ?_⟩
    · intro hall
      by_cases hz : ∀ b ∈ a :: rest, b.timings.SS = 0
      · have := fold_no_server rest a.withTags (hz a (by simp)) fun b hb => hz b (by simp [hb])
        rw [eT] at this
        exact hall.2.2.1 this
      · obtain ⟨b, hb, hne⟩ : ∃ b ∈ a :: rest, b.timings.SS ≠ 0 := by
          refine Classical.byContradiction fun h => hz fun b hb => ?_
          exact Classical.byContradiction fun h' => h ⟨b, hb, h'⟩
        have hc : ∀ q ∈ a :: rest, q.timings.CS = 0 := by
          intro q hq
          rcases ht.side b (hmem b hb).1 q (hmem q hq).1 ((hmem q hq).2.trans (hmem b hb).2.symm) (by rw [(hmem b hb).2]; exact hs) with h | h
          · exact absurd h.1 hne
          · exact h.2
        have := fold_no_client rest a.withTags (hc a (by simp)) fun b hb => hc b (by simp [hb])
        rw [eT] at this
        exact hall.1 this
    · rw [← eTs, (fold_timestamp rest a.withTags).1, ← ha.2]; exact hl.timestamp
    · rw [← eDu, (fold_timestamp rest a.withTags).2, ← ha.2]; exact hl.duration
    · rw [← ha.2]; exact hl.clock

/-! ## Skew -/

theorem toInt_ofInt {x : Int} (h1 : -2 ^ 63 ≤ x) (h2 : x < 2 ^ 63) : (Int64.ofInt x).toInt = x :=
  Int64.toInt_ofInt_of_le h1 h2

theorem half_toInt {a b : Int64} (ha : 0 < a.toInt) (ha' : a.toInt < 2 ^ 62) (hb : 0 < b.toInt) (hb' : b.toInt < 2 ^ 62) : ((a + b) / 2).toInt = (a.toInt + b.toInt) / 2 := by
  have e : (a + b).toInt = a.toInt + b.toInt := by
    rw [Int64.toInt_add]
    exact Int.bmod_eq_of_le (by omega) (by omega)
  rw [Int64.toInt_div, e]
  have : (2 : Int64).toInt = 2 := rfl
  rw [this, Int.tdiv_eq_ediv_of_nonneg (by omega)]
  exact Int.bmod_eq_of_le (by omega) (by omega)

theorem skew_ofInt {S : Story} {s : Span} (h : Holding S s) (hd : S.shared s.id = true → ∀ x ∈ [S.start s.id + S.caller s.id, S.stop s.id + S.caller s.id, S.arrive s.id + S.callee s.id, S.leave s.id + S.callee s.id],
    0 < x ∧ x < 2 ^ 62) : ∃ e : Int, e.natAbs ≤ S.inexact s.id ∧ skew s = Int64.ofInt (S.caller s.id - S.callee s.id + e) := by
  unfold skew Story.inexact
  cases hs : S.shared s.id with
  | false =>
    obtain ⟨h1, _, _, h4⟩ := h.lone hs
    refine ⟨0, by simp, ?_⟩
    rw [if_neg h1, h4]
    simp
  | true =>
    obtain ⟨h1, v1, v2, v3, v4⟩ := h.shared hs
    have dd := hd hs
    have d1 := dd (S.start s.id + S.caller s.id) (by simp)
    have d2 := dd (S.stop s.id + S.caller s.id) (by simp)
    have d3 := dd (S.leave s.id + S.callee s.id) (by simp)
    have d4 := dd (S.arrive s.id + S.callee s.id) (by simp)
    rw [if_pos h1]
    have k1 := half_toInt (a := s.timings.CR) (b := s.timings.CS) (by omega) (by omega) (by omega) (by omega)
    have k2 := half_toInt (a := s.timings.SR) (b := s.timings.SS) (by omega) (by omega) (by omega) (by omega)
    rw [v1, v2] at k1
    rw [v3, v4] at k2
    generalize hA : (s.timings.CR + s.timings.CS) / 2 = A at *
    generalize hB : (s.timings.SR + s.timings.SS) / 2 = B at *
    refine ⟨A.toInt - B.toInt - (S.caller s.id - S.callee s.id), ?_, ?_⟩
    · unfold Story.bias
      simp only [if_true]
      omega
    · rw [show S.caller s.id - S.callee s.id + (A.toInt - B.toInt - (S.caller s.id - S.callee s.id)) = A.toInt - B.toInt by omega, Int64.ofInt_sub]
      simp

/-! ## The shift of a span -/

/-- The spans held for a trace, and what may be added to them: a root without timings, above the root candidates. -/
structure Setting (S : Story) (home : Int) (l spans base : List Span) (r : Span) : Prop where
  told : S.Told home l
  holds : ∀ s ∈ spans, Holding S s
  ids : ∀ id, (∃ s ∈ spans, s.id = id) ↔ ∃ m ∈ l, m.id = id
  sub : ∀ s ∈ spans, s ∈ base
  uniq : UniqueIds base
  root : UniqueRoot base r
  extra : ∀ f ∈ base, f ∉ spans → f = r ∧ f.timings = {}

theorem Setting.first {S : Story} {home : Int} {l spans base : List Span} {r : Span} (h : Setting S home l spans base r) {s : Span} (hs : s ∈ spans)
    (hr : s.parent = s.id ∨ ∀ q ∈ spans, q.id ≠ s.parent) : S.caller s.id = home := by
  obtain ⟨m, hm, e⟩ := (h.ids s.id).mp ⟨s, hs, rfl⟩
  rw [← e]
  refine h.told.first m hm ?_
  rw [e, ← (h.holds s hs).parent]
  refine hr.imp id fun hq q hq' e' => ?_
  obtain ⟨x, hx, ex⟩ := (h.ids q.id).mpr ⟨q, hq', rfl⟩
  exact hq x hx (ex.trans e')

theorem Setting.inside {S : Story} {home : Int} {l spans base : List Span} {r : Span} (h : Setting S home l spans base r) {p s : Span} (hp : p ∈ spans) (hs : s ∈ spans)
    (hpar : s.parent = p.id) (hne : s.parent ≠ s.id) : S.caller s.id = S.callee p.id := by
  obtain ⟨m, hm, e⟩ := (h.ids s.id).mp ⟨s, hs, rfl⟩
  obtain ⟨q, hq, e'⟩ := (h.ids p.id).mp ⟨p, hp, rfl⟩
  have := h.told.inside m hm q hq (by rw [e', e, ← hpar]; exact (h.holds s hs).parent) (by rw [e', e, ← hpar]; exact hne)
  rw [e, e'] at this
  exact this

theorem Setting.shift {S : Story} {home : Int} {l spans base : List Span} {r : Span} (h : Setting S home l spans base r) {anc : List Span} {s : Span} (hp : Path base r anc s) :
    s ∈ spans → ∃ e : Int, e.natAbs ≤ S.inexactOf anc ∧ Spec.shift anc = Int64.ofInt (home - S.caller s.id + e) := by
  induction hp with
  | root =>
    intro hs
    have hc : S.caller r.id = home := h.first hs (h.root.1.2.imp id fun hq q hq' => hq q (h.sub q hq'))
    refine ⟨0, by simp, ?_⟩
    rw [hc]
    show (0 : Int64) = _
    simp
  | @child anc p c hp hc hpar hne ih =>
    intro hs
    have hpb : p ∈ base := hp.mem h.root.1.1
    by_cases hps : p ∈ spans
    · obtain ⟨e, he, hsh⟩ := ih hps
      obtain ⟨e', he', hsk⟩ := skew_ofInt (h.holds p hps) (h.told.dated p.id)
      refine ⟨e + e', ?_, ?_⟩
      · show _ ≤ (List.map _ (p :: anc)).sum
        rw [List.map_cons, List.sum_cons]
        have : S.inexactOf anc = (List.map (fun a => S.inexact a.id) anc).sum := rfl
        omega
      · show Spec.shift anc + skew p = _
        rw [hsh, hsk, ← Int64.ofInt_add, h.inside hps hs hpar hne]
        congr 1
        omega
    · obtain ⟨rfl, ht⟩ := h.extra p hpb hps
      have hanc : anc = [] := Path.unique h.uniq h.root.1 hp .root
      subst hanc
      have hc : S.caller c.id = home := by
        refine h.first hs (.inr fun q hq e => hps ?_)
        have : q = p := h.uniq q (h.sub q hq) p hpb (e.trans hpar)
        rw [← this]; exact hq
      refine ⟨0, by simp, ?_⟩
      have : ¬ HasAllTimings p := fun h => h.1 (by rw [ht])
      show (0 : Int64) + skew p = _
      rw [show skew p = 0 by unfold skew; rw [if_neg this], hc]
      simp

theorem sum_le_of_subset {α : Type} [DecidableEq α] (g : α → Nat) : ∀ (l m : List α), l.Nodup → (∀ x ∈ l, x ∈ m) → (l.map g).sum ≤ (m.map g).sum
  | [], _, _, _ => Nat.zero_le _
  | x :: l, m, hn, hs => by
    rw [List.nodup_cons] at hn
    have hx := hs x (by simp)
    have := sum_le_of_subset g l (m.erase x) hn.2 fun y hy => by
      have hne : y ≠ x := fun e => hn.1 (e ▸ hy)
      exact (List.mem_erase_of_ne hne).mpr (hs y (by simp [hy]))
    have e := ((List.perm_cons_erase hx).map g).sum_nat
    rw [e]
    simp only [List.map_cons, List.sum_cons]
    omega

theorem Setting.total {S : Story} {home : Int} {l spans base : List Span} {r : Span} (h : Setting S home l spans base r) {anc : List Span} {s : Span} (hp : Path base r anc s) :
    S.inexactOf anc ≤ (l.map fun q => S.inexact q.id).sum := by
  have hn := (List.nodup_cons.mp (Path.nodup h.uniq h.root.1 hp)).2
  have hm := Path.anc_mem hp h.root.1.1
  -- only shared spans count, and these are in the trace
  have e : ∀ a : List Span, (a.map fun a => S.inexact a.id).sum = (((a.filter fun x => S.shared x.id).map Span.id).map S.inexact).sum := by
    intro a
    induction a with
    | nil => rfl
    | cons x a ih =>
      rw [List.map_cons, List.sum_cons, ih, List.filter_cons]
      split
      · simp
      · next hx => simp [Story.inexact, hx]
  unfold Story.inexactOf
  rw [e anc, show (l.map fun q => S.inexact q.id) = (l.map Span.id).map S.inexact by rw [List.map_map]; rfl]
  refine sum_le_of_subset _ _ _ ?_ ?_
  · have hn' : (anc.filter fun x => S.shared x.id).Nodup := hn.filter _
    rw [List.Nodup, List.pairwise_map]
    refine List.Pairwise.imp_of_mem ?_ hn'
    intro a b ha hb hab e
    exact hab (h.uniq a (hm a (List.mem_filter.mp ha).1) b (hm b (List.mem_filter.mp hb).1) e)
  · intro x hx
    obtain ⟨a, ha, rfl⟩ := List.mem_map.mp hx
    obtain ⟨⟨m, hm, e, _⟩, _⟩ := h.told.both a.id (by simpa using (List.mem_filter.mp ha).2)
    exact List.mem_map.mpr ⟨m, hm, e⟩

/-- The corrected start and duration of a span of the story. -/
theorem Setting.corrected {S : Story} {home : Int} {l spans base : List Span} {r : Span} (h : Setting S home l spans base r) (hin : S.InTime home l) {anc : List Span} {s : Span}
    (hp : Path base r anc s) (hs : s ∈ spans) :
    ((Spec.corrected anc s).timestamp.toInt - (S.start s.id + home)).natAbs ≤ S.inexactOf anc ∧ (Spec.corrected anc s).duration.toInt = S.stop s.id - S.start s.id := by
  obtain ⟨e, he, hsh⟩ := h.shift hp hs
  have htot := h.total hp
  obtain ⟨m, hm, em⟩ := (h.ids s.id).mp ⟨s, hs, rfl⟩
  have hi := hin m hm
  rw [em] at hi
  have y : year2020.toInt = 1577836800000000000 := rfl
  have hstart : shiftedStart anc s = Int64.ofInt (S.start s.id + home + e) := by
    unfold shiftedStart
    rw [hsh]
    have key : ∀ t : Int64, t.toInt = S.start s.id + S.caller s.id → t + Int64.ofInt (home - S.caller s.id + e) = Int64.ofInt (S.start s.id + home + e) := by
      intro t ht
      rw [show t = Int64.ofInt (S.start s.id + S.caller s.id) by rw [← ht]; simp, ← Int64.ofInt_add]
      congr 1
      omega
    cases hsd : S.shared s.id with
    | true =>
      obtain ⟨h1, h2, _⟩ := (h.holds s hs).shared hsd
      rw [if_pos h1]; exact key _ h2
    | false =>
      obtain ⟨h1, h2, _⟩ := (h.holds s hs).lone hsd
      rw [if_neg h1]; exact key _ h2
  have hval : (shiftedStart anc s).toInt = S.start s.id + home + e := by
    rw [hstart]; exact toInt_ofInt (by omega) (by omega)
  have hst : Spec.start anc s = shiftedStart anc s := by
    cases anc with
    | nil => rfl
    | cons p anc =>
      rw [Spec.start, if_neg]
      rw [Int64.lt_iff_toInt_lt, hval]
      omega
  constructor
  · show ((Spec.start anc s).toInt - _).natAbs ≤ _
    rw [hst, hval]
    omega
  · show (if HasAllTimings s then s.timings.CR - s.timings.CS else s.duration).toInt = _
    cases hsd : S.shared s.id with
    | true =>
      obtain ⟨h1, h2, h3, _⟩ := (h.holds s hs).shared hsd
      have dd := h.told.dated s.id hsd
      have d1 := dd (S.start s.id + S.caller s.id) (by simp)
      have d2 := dd (S.stop s.id + S.caller s.id) (by simp)
      rw [if_pos h1, Int64.toInt_sub, h2, h3]
      rw [show S.stop s.id + S.caller s.id - (S.start s.id + S.caller s.id) = S.stop s.id - S.start s.id by omega]
      exact Int.bmod_eq_of_le (by omega) (by omega)
    | false =>
      obtain ⟨h1, _, h3, _⟩ := (h.holds s hs).lone hsd
      rw [if_neg h1]; exact h3

/-- Paths in lists with the same links have the same ids. -/
theorem path_ids {l l' : List Span} (h : l.map link = l'.map link) (hn : (l.map Span.id).Nodup) {r r' : Span} (hr : r ∈ l) (hr' : r' ∈ l') (her : link r' = link r)
    {anc : List Span} {s : Span} (hp : Path l r anc s) : ∀ {s'}, s' ∈ l' → link s' = link s → ∃ anc', Path l' r' anc' s' ∧ anc'.map Span.id = anc.map Span.id := by
  have hn' : (l'.map Span.id).Nodup := ids_of_links h ▸ hn
  induction hp with
  | root =>
    intro s' hs' he
    rw [mem_eq_of_id hn' hs' hr' ((link_eq he).1.trans (link_eq her).1.symm)]
    exact ⟨[], .root, rfl⟩
  | @child anc p c hp hc hpar hne ih =>
    intro s' hs' he
    obtain ⟨p', hp', ep⟩ := links_mem h (hp.mem hr)
    obtain ⟨anc', h1, h2⟩ := ih hp' ep
    refine ⟨p' :: anc', .child h1 hs' ?_ ?_, ?_⟩
    · rw [(link_eq he).2, (link_eq ep).1]; exact hpar
    · rw [(link_eq he).2, (link_eq he).1]; exact hne
    · rw [List.map_cons, List.map_cons, h2, (link_eq ep).1]

theorem inexactOf_ids {S : Story} {a b : List Span} (h : a.map Span.id = b.map Span.id) : S.inexactOf a = S.inexactOf b := by
  have : ∀ l : List Span, S.inexactOf l = ((l.map Span.id).map S.inexact).sum := fun l => by rw [List.map_map]; rfl
  rw [this, this, h]

theorem setting {S : Story} {home : Int} {clock : Time} {k : Id} {t : Tree} (hok : TreeOk clock k t) (ht : S.Told home t.members) {base : List Span} {r0 : Span}
    (hrep : Repaired k t.spans base) (hroot : UniqueRoot base r0) : Setting S home t.members t.spans base r0 := by
  have hs : SortedDesc t.spans := hok.inv.sorted
  refine ⟨ht, fun s hs' => holding ht (hok.inv.mem_held hs'), hok.inv.ids, ?_, ?_, hroot, ?_⟩
  · intro s hs'
    rcases hrep with ⟨p, f, _, _, hperm, _⟩ | ⟨_, rfl⟩
    · exact hperm.mem_iff.mpr (by simp [hs'])
    · exact hs'
  · rcases hrep with ⟨p, f, _, _, _, hpw⟩ | ⟨_, rfl⟩
    · exact SortedDesc.uniqueIds hpw
    · exact hs.uniqueIds
  · intro g hg hng
    rcases hrep with ⟨p, f, hsp, hf, hperm, hpw⟩ | ⟨_, rfl⟩
    · rcases List.mem_cons.mp (hperm.mem_iff.mp hg) with rfl | h
      · refine ⟨?_, hf.timings⟩
        rcases List.mem_cons.mp (hperm.mem_iff.mp hroot.1.1) with h | h
        · exact h.symm
        · -- the root would be a root candidate of the trace, but its parent is the fake root
          exfalso
          have hu : UniqueIds base := SortedDesc.uniqueIds hpw
          have hcand : IsRootOf t.spans r0 := ⟨h, hroot.1.2.imp id fun hq q hq' => hq q (hperm.mem_iff.mpr (by simp [hq']))⟩
          have hpar := hsp.2 r0 hcand
          rcases hroot.1.2 with e | e
          · have : r0 = g := hu r0 hroot.1.1 g hg (by rw [← e, hpar, hf.id])
            exact hng (this ▸ h)
          · exact e g hg (by rw [hf.id, hpar])
      · exact absurd h hng
    · exact absurd hg hng

end Verif
