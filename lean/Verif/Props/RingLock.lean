import Verif.Model.RingLock
import Verif.Props.Ring

/-!
# C110: the admin view is read between two traces
-/

namespace Verif

namespace LockedRing

/-- The ring with all traces stored so far. -/
abbrev Between (capacity : Nat) (b : LockedRing) (r : Ring) : Prop := (Ring.new capacity).readFrom b.stored = some r

structure Inv (capacity : Nat) (b : LockedRing) : Prop where
  writerIn : b.lock = some .writer ↔ ∃ l, b.writer = .write l ∨ b.writer = .advance l
  viewerIn : ∀ j : Nat, b.lock = some (.viewer j) ↔ ∃ n i r, b.viewers[j]? = some (.scan n i r)
  outside : b.lock ≠ some .writer → Between capacity b b.ring
  writing : ∀ l, b.writer = .write l → ∃ pre r, b.current = pre ++ l ∧ Between capacity b r ∧ r.pushTrace pre = some b.ring
  advancing : ∀ l, b.writer = .advance l → ∃ pre s r r', b.current = pre ++ s :: l ∧ Between capacity b r ∧ r.pushTrace pre = some r' ∧
    r'.position < r'.spans.length ∧ b.ring = { r' with spans := r'.spans.set r'.position s }
  scanning : ∀ (j n i : Nat) (r : List Span), b.viewers[j]? = some (.scan n i r) → n ≤ b.stored.length ∧ i ≤ b.ring.spans.length ∧ r = (b.ring.spans.take i).filter (fun s => s.Visible)
  waiting : ∀ (j n : Nat), b.viewers[j]? = some (.wait n) → n ≤ b.stored.length
  views : ∀ v ∈ b.views, v.1 ≤ v.2.1 ∧ v.2.1 ≤ b.stored.length ∧ Shows capacity (b.stored.take v.2.1) v.2.2
  sorted : b.views.Pairwise fun v w => v.2.1 ≤ w.2.1

theorem _root_.Verif.Ring.pushTrace_append (a b : List Span) (r : Ring) : r.pushTrace (a ++ b) = (r.pushTrace a).bind (Ring.pushTrace b) := by
  induction a generalizing r with
  | nil => rfl
  | cons s a ih =>
    simp only [List.cons_append, Ring.pushTrace]
    cases r.push s with
    | none => rfl
    | some r' => exact ih r'

theorem _root_.Verif.Ring.readFrom_append (a b : List (List Span)) (r : Ring) : r.readFrom (a ++ b) = (r.readFrom a).bind (Ring.readFrom b) := by
  induction a generalizing r with
  | nil => rfl
  | cons s a ih =>
    simp only [List.cons_append, Ring.readFrom]
    cases r.pushTrace s with
    | none => rfl
    | some r' => exact ih r'

theorem getElem?_set_cases {α : Type} {l : List α} {j k : Nat} {x y : α} (h : (l.set j x)[k]? = some y) : (k = j ∧ y = x) ∨ (k ≠ j ∧ l[k]? = some y) := by
  rw [List.getElem?_set] at h
  split at h
  · next e =>
    split at h
    · exact .inl ⟨e.symm, (Option.some.inj h).symm⟩
    · cases h
  · next e => exact .inr ⟨fun e' => e e'.symm, h⟩

theorem getElem?_set_of {α : Type} {l : List α} {j : Nat} {x y : α} (h : l[j]? = some y) : (l.set j x)[j]? = some x := by
  obtain ⟨hj, _⟩ := List.getElem?_eq_some_iff.mp h
  simp [hj]

theorem Reachable.inv {capacity : Nat} {b : LockedRing} (h : b.Reachable capacity) : Inv capacity b := by
  induction h with
  | init n =>
    have hi : ∀ (j : Nat) (x : ViewerPc), (List.replicate n ViewerPc.idle)[j]? = some x → x = .idle := by
      intro j x hx
      exact List.eq_of_mem_replicate (List.mem_of_getElem? hx)
    refine { writerIn := ⟨fun h => by (cases h), ?_⟩, viewerIn := fun j => ⟨fun h => by (cases h), ?_⟩, outside := fun _ => rfl, writing := fun _ h => by (cases h),
             advancing := fun _ h => by (cases h), scanning := fun j _ _ _ h => ?_, waiting := fun j _ h => ?_, views := fun _ h => by (cases h), sorted := .nil }
    · rintro ⟨_, h | h⟩ <;> cases h
    · rintro ⟨_, _, _, h⟩; cases hi _ _ h
    · cases hi _ _ h
    · cases hi _ _ h
  | @step b b' _ hs ih =>
    cases hs with
    | receive t hw =>
      refine { ih with writerIn := ⟨fun h => ?_, ?_⟩, writing := fun _ h => by (cases h), advancing := fun _ h => by (cases h) }
      · obtain ⟨_, h | h⟩ := ih.writerIn.mp h <;> · rw [hw] at h; cases h
      · rintro ⟨_, h | h⟩ <;> cases h
    | @lock t hw hl =>
      have ho := ih.outside (by rw [hl]; simp)
      refine { ih with writerIn := ⟨fun _ => ⟨t, .inl rfl⟩, fun _ => rfl⟩, viewerIn := fun j => ⟨fun h => by (cases h), fun h => ?_⟩, outside := fun h => absurd rfl h,
                       writing := fun l h => ?_, advancing := fun _ h => by (cases h) }
      · rw [← ih.viewerIn, hl] at h; cases h
      · cases h
        exact ⟨[], b.ring, rfl, ho, rfl⟩
    | @store s rest hw hp =>
      obtain ⟨pre, r, h1, h2, h3⟩ := ih.writing _ hw
      have hl := ih.writerIn.mpr ⟨_, .inl hw⟩
      have hno : ∀ (j n i : Nat) (r : List Span), b.viewers[j]? ≠ some (.scan n i r) := fun j n i r h => by
        have := (ih.viewerIn j).mpr ⟨n, i, r, h⟩
        rw [hl] at this; cases this
      refine { ih with writerIn := ⟨fun _ => ⟨rest, .inr rfl⟩, fun _ => hl⟩, outside := fun h => absurd hl h, writing := fun _ h => by (cases h), advancing := fun l h => ?_,
                       scanning := fun j n i r h => absurd h (hno j n i r) }
      cases h
      exact ⟨pre, s, r, b.ring, h1, h2, h3, hp, rfl⟩
    | @advance rest hw hp =>
      obtain ⟨pre, s, r, r', h1, h2, h3, h4, h5⟩ := ih.advancing _ hw
      have hl := ih.writerIn.mpr ⟨_, .inr hw⟩
      have hno : ∀ (j n i : Nat) (r : List Span), b.viewers[j]? ≠ some (.scan n i r) := fun j n i r h => by
        have := (ih.viewerIn j).mpr ⟨n, i, r, h⟩
        rw [hl] at this; cases this
      refine { ih with writerIn := ⟨fun _ => ⟨rest, .inl rfl⟩, fun _ => hl⟩, outside := fun h => absurd hl h, writing := fun l h => ?_, advancing := fun _ h => by (cases h),
                       scanning := fun j n i r h => absurd h (hno j n i r) }
      cases h
      refine ⟨pre ++ [s], r, by simp [h1], h2, ?_⟩
      rw [Ring.pushTrace_append, h3]
      simp only [Option.bind_some, Ring.pushTrace, Ring.push, if_pos h4]
      rw [h5]
      simp
    | unlock hw =>
      obtain ⟨pre, r, h1, h2, h3⟩ := ih.writing _ hw
      have hl := ih.writerIn.mpr ⟨_, .inl hw⟩
      have hno : ∀ (j n i : Nat) (r : List Span), b.viewers[j]? ≠ some (.scan n i r) := fun j n i r h => by
        have := (ih.viewerIn j).mpr ⟨n, i, r, h⟩
        rw [hl] at this; cases this
      refine { writerIn := ⟨fun h => by (cases h), ?_⟩, viewerIn := fun j => ⟨fun h => by (cases h), ?_⟩, outside := fun _ => ?_, writing := fun _ h => by (cases h),
               advancing := fun _ h => by (cases h), scanning := fun j n i r h => absurd h (hno j n i r), waiting := fun j n h => ?_, views := fun v hv => ?_, sorted := ih.sorted }
      · rintro ⟨_, h | h⟩ <;> cases h
      · rintro ⟨n, i, r, h⟩; exact absurd h (hno j n i r)
      · show (Ring.new capacity).readFrom (b.stored ++ [b.current]) = some b.ring
        rw [Ring.readFrom_append, h2, h1, List.append_nil]
        simp only [Option.bind_some, Ring.readFrom, h3]
      · have := ih.waiting j n h
        simp only [List.length_append]; omega
      · obtain ⟨h4, h5, h6⟩ := ih.views v hv
        refine ⟨h4, by simp only [List.length_append]; omega, ?_⟩
        show Shows capacity ((b.stored ++ [b.current]).take v.2.1) v.2.2
        rw [List.take_append_of_le_length h5]
        exact h6
    | @call j hj =>
      refine { ih with viewerIn := fun k => ⟨fun h => ?_, ?_⟩, scanning := fun k n i r h => ?_, waiting := fun k n h => ?_ }
      · obtain ⟨n, i, r, h⟩ := (ih.viewerIn k).mp h
        refine ⟨n, i, r, ?_⟩
        show (b.viewers.set j _)[k]? = _
        rw [List.getElem?_set_ne, h]
        rintro rfl; rw [hj] at h; cases h
      · rintro ⟨n, i, r, h⟩
        rcases getElem?_set_cases h with ⟨_, h⟩ | ⟨_, h⟩
        · cases h
        · exact (ih.viewerIn k).mpr ⟨n, i, r, h⟩
      · rcases getElem?_set_cases h with ⟨_, h⟩ | ⟨_, h⟩
        · cases h
        · exact ih.scanning k n i r h
      · rcases getElem?_set_cases h with ⟨_, h⟩ | ⟨_, h⟩
        · cases h; exact Nat.le_refl _
        · exact ih.waiting k n h
    | @viewLock j n hj hl =>
      have ho := ih.outside (by rw [hl]; simp)
      have hno : ∀ (j n i : Nat) (r : List Span), b.viewers[j]? ≠ some (.scan n i r) := fun j n i r h => by
        have := (ih.viewerIn j).mpr ⟨n, i, r, h⟩
        rw [hl] at this; cases this
      refine { ih with writerIn := ⟨fun h => by (cases h), fun h => ?_⟩, viewerIn := fun k => ⟨fun h => ?_, ?_⟩, outside := fun _ => ho, scanning := fun k n i r h => ?_, waiting := fun k n h => ?_ }
      · rw [← ih.writerIn, hl] at h; cases h
      · cases h
        exact ⟨n, 0, [], getElem?_set_of hj⟩
      · rintro ⟨n, i, r, h⟩
        rcases getElem?_set_cases h with ⟨e, _⟩ | ⟨_, h⟩
        · rw [e]
        · exact absurd h (hno k n i r)
      · rcases getElem?_set_cases h with ⟨_, h⟩ | ⟨_, h⟩
        · cases h; exact ⟨ih.waiting j n hj, Nat.zero_le _, rfl⟩
        · exact absurd h (hno k n i r)
      · rcases getElem?_set_cases h with ⟨_, h⟩ | ⟨_, h⟩
        · cases h
        · exact ih.waiting k n h
    | @scan j n i r s hj hsp =>
      have hl := (ih.viewerIn j).mpr ⟨n, i, r, hj⟩
      obtain ⟨h1, h2, h3⟩ := ih.scanning j n i r hj
      obtain ⟨hi, hs⟩ := List.getElem?_eq_some_iff.mp hsp
      refine { ih with viewerIn := fun k => ⟨fun h => ?_, ?_⟩, scanning := fun k n i r h => ?_, waiting := fun k n h => ?_ }
      · rw [hl] at h; cases h
        exact ⟨_, _, _, getElem?_set_of hj⟩
      · rintro ⟨n, i, r, h⟩
        rcases getElem?_set_cases h with ⟨e, _⟩ | ⟨_, h⟩
        · rw [e]; exact hl
        · exact (ih.viewerIn k).mpr ⟨n, i, r, h⟩
      · rcases getElem?_set_cases h with ⟨_, h⟩ | ⟨_, h⟩
        · cases h
          refine ⟨h1, hi, ?_⟩
          show _ = (b.ring.spans.take _).filter _
          rw [List.take_add_one, hsp, List.filter_append, ← h3]
          by_cases hz : s.id = 0 <;> simp [hz, Span.Visible]
        · exact ih.scanning k n i r h
      · rcases getElem?_set_cases h with ⟨_, h⟩ | ⟨_, h⟩
        · cases h
        · exact ih.waiting k n h
    | @viewUnlock j n i r hj he =>
      have hl := (ih.viewerIn j).mpr ⟨n, i, r, hj⟩
      obtain ⟨h1, h2, h3⟩ := ih.scanning j n i r hj
      have ho := ih.outside (by rw [hl]; simp)
      have hno : ∀ (k n i : Nat) (r : List Span), k ≠ j → b.viewers[k]? ≠ some (.scan n i r) := fun k n i r hk h => by
        have := (ih.viewerIn k).mpr ⟨n, i, r, h⟩
        rw [hl] at this; cases this; exact hk rfl
      refine { writerIn := ⟨fun h => by (cases h), fun h => ?_⟩, viewerIn := fun k => ⟨fun h => by (cases h), ?_⟩, outside := fun _ => ho, writing := ih.writing,
               advancing := ih.advancing, scanning := fun k n i r h => ?_, waiting := fun k n h => ?_, views := fun v hv => ?_, sorted := ?_ }
      · rw [← ih.writerIn, hl] at h; cases h
      · rintro ⟨n, i, r, h⟩
        rcases getElem?_set_cases h with ⟨_, h⟩ | ⟨hk, h⟩
        · cases h
        · exact absurd h (hno k n i r hk)
      · rcases getElem?_set_cases h with ⟨_, h⟩ | ⟨hk, h⟩
        · cases h
        · exact absurd h (hno k n i r hk)
      · rcases getElem?_set_cases h with ⟨_, h⟩ | ⟨_, h⟩
        · cases h
        · exact ih.waiting k n h
      · rcases List.mem_append.mp hv with hv | hv
        · exact ih.views v hv
        · obtain rfl := List.mem_singleton.mp hv
          refine ⟨h1, Nat.le_refl _, b.ring, ?_, ?_⟩
          · simpa using ho
          · rw [toSlice_eq, h3, he, List.take_length]
      · show (b.views ++ [_]).Pairwise _
        rw [List.pairwise_append]
        refine ⟨ih.sorted, List.pairwise_singleton .., fun v hv w hw => ?_⟩
        obtain rfl := List.mem_singleton.mp hw
        exact (ih.views v hv).2.1

theorem _root_.Verif.Ring.push_length {r r' : Ring} {s : Span} (h : r.push s = some r') : r'.spans.length = r.spans.length ∧ r.position < r.spans.length ∧ r'.position < r'.spans.length := by
  unfold Ring.push at h
  split at h
  · next hp =>
    cases h
    simp only [List.length_set]
    exact ⟨trivial, hp, Nat.mod_lt _ (by omega)⟩
  · cases h

theorem _root_.Verif.Ring.pushTrace_length {r r' : Ring} {l : List Span} (h : r.pushTrace l = some r') (hp : r.position < r.spans.length) :
    r'.spans.length = r.spans.length ∧ r'.position < r'.spans.length := by
  induction l generalizing r with
  | nil => cases h; exact ⟨rfl, hp⟩
  | cons s l ih =>
    simp only [Ring.pushTrace] at h
    cases h1 : r.push s with
    | none => rw [h1] at h; cases h
    | some r1 =>
      rw [h1] at h
      obtain ⟨h2, _, h3⟩ := Ring.push_length h1
      rw [← h2]
      exact ih h h3

theorem _root_.Verif.Ring.readFrom_length {r r' : Ring} {l : List (List Span)} (h : r.readFrom l = some r') (hp : r.position < r.spans.length) :
    r'.spans.length = r.spans.length ∧ r'.position < r'.spans.length := by
  induction l generalizing r with
  | nil => cases h; exact ⟨rfl, hp⟩
  | cons s l ih =>
    simp only [Ring.readFrom] at h
    cases h1 : r.pushTrace s with
    | none => rw [h1] at h; cases h
    | some r1 =>
      rw [h1] at h
      obtain ⟨h2, h3⟩ := Ring.pushTrace_length h1 hp
      rw [← h2]
      exact ih h h3

theorem Between.length {capacity : Nat} (hc : 0 < capacity) {b : LockedRing} {r : Ring} (h : Between capacity b r) : r.spans.length = capacity ∧ r.position < r.spans.length := by
  have := Ring.readFrom_length h (by simpa [Ring.new] using hc)
  simpa [Ring.new] using this

theorem Reachable.length {capacity : Nat} (hc : 0 < capacity) {b : LockedRing} (h : b.Reachable capacity) :
    b.ring.spans.length = capacity ∧ ((∀ l, b.writer ≠ .advance l) → b.ring.position < capacity) := by
  have hi := h.inv
  by_cases hl : b.lock = some .writer
  · obtain ⟨l, hw | hw⟩ := hi.writerIn.mp hl
    · obtain ⟨pre, r, _, h2, h3⟩ := hi.writing l hw
      obtain ⟨h4, h5⟩ := Between.length hc h2
      obtain ⟨h6, h7⟩ := Ring.pushTrace_length h3 h5
      exact ⟨by omega, fun _ => by omega⟩
    · obtain ⟨pre, s, r, r', _, h2, h3, h4, h5⟩ := hi.advancing l hw
      obtain ⟨h6, h7⟩ := Between.length hc h2
      obtain ⟨h8, _⟩ := Ring.pushTrace_length h3 h7
      refine ⟨?_, fun h => absurd hw (h l)⟩
      rw [h5]; simp only [List.length_set]; omega
  · obtain ⟨h4, h5⟩ := Between.length hc (hi.outside hl)
    exact ⟨h4, fun _ => by omega⟩

/-- What the goroutine that stores has to do until it is done with the trace. -/
def _root_.Verif.WriterPc.work : WriterPc → Nat
  | .receive => 0
  | .wait t => 2 * t.length + 2
  | .write l => 2 * l.length + 1
  | .advance l => 2 * l.length + 2

/-- What a call of `ToSlice` has to do. -/
def _root_.Verif.ViewerPc.work (capacity : Nat) : ViewerPc → Nat
  | .idle => 0
  | .wait _ => capacity + 2
  | .scan _ i _ => capacity - i + 1

/-- What all have to do. -/
def work (capacity : Nat) (b : LockedRing) : Nat := b.writer.work + (b.viewers.map (·.work capacity)).sum

theorem sum_set (f : ViewerPc → Nat) {l : List ViewerPc} {j : Nat} {x y : ViewerPc} (h : l[j]? = some x) : ((l.set j y).map f).sum + f x = (l.map f).sum + f y := by
  induction l generalizing j with
  | nil => cases h
  | cons a l ih =>
    cases j with
    | zero => cases h; simp only [List.set_cons_zero, List.map_cons, List.sum_cons]; omega
    | succ j =>
      have := ih (j := j) h
      simp only [List.set_cons_succ, List.map_cons, List.sum_cons]; omega

/-- A trace comes in, or `ToSlice` is called. -/
def Starts (b b' : LockedRing) : Prop :=
  (b.writer = .receive ∧ ∃ t, b'.writer = .wait t) ∨ ∃ j : Nat, b.viewers[j]? = some .idle ∧ ∃ n, b'.viewers[j]? = some (.wait n)

end LockedRing

open LockedRing

/-- C110: every result of `ToSlice` is the view after some number of whole traces: all those that were stored before the call, and those that were stored until the return. (What the
view after a number of traces is: C56.) -/
theorem C110_view {capacity : Nat} {b : LockedRing} (h : b.Reachable capacity) {since stored : Nat} {result : List Span} (hv : (since, stored, result) ∈ b.views) :
    since ≤ stored ∧ stored ≤ b.stored.length ∧ Shows capacity (b.stored.take stored) result :=
  h.inv.views _ hv

/-- C110: so all spans of the trace stored last are shown, if they fit. -/
theorem C110_whole {capacity : Nat} {b : LockedRing} (h : b.Reachable capacity) (hc : 0 < capacity) {since stored : Nat} {result : List Span} (hv : (since, stored, result) ∈ b.views)
    (hs : 0 < stored) {t : List Span} (ht : b.stored[stored - 1]? = some t) (hlen : t.length ≤ capacity) : ∀ s ∈ t, s.id ≠ 0 → s ∈ result := by
  intro s hst hid
  obtain ⟨_, h2, h3⟩ := C110_view h hv
  obtain ⟨view, h4, h5⟩ := C56_last hc (b.stored.take stored)
  rw [h3.unique h4]
  refine h5.mem_iff.mpr (List.mem_filter.mpr ⟨?_, decide_eq_true hid⟩)
  have : b.stored.take stored = b.stored.take (stored - 1) ++ [t] := by
    obtain ⟨k, rfl⟩ : ∃ k, stored = k + 1 := ⟨stored - 1, by omega⟩
    rw [List.take_add_one]
    simp only [Nat.add_sub_cancel] at ht ⊢
    rw [ht]; rfl
  rw [this, List.flatten_append]
  simp only [List.flatten_cons, List.flatten_nil, List.append_nil]
  unfold lastOf
  rw [List.drop_append, List.length_append]
  refine List.mem_append_right _ ?_
  have hz : (List.take (stored - 1) b.stored).flatten.length + t.length - capacity - (List.take (stored - 1) b.stored).flatten.length = 0 := by omega
  rw [hz]
  exact hst

/-- C110: results that are returned later show no fewer traces. -/
theorem C110_order {capacity : Nat} {b : LockedRing} (h : b.Reachable capacity) : b.views.Pairwise fun v w => v.2.1 ≤ w.2.1 := h.inv.sorted

/-- C110: nobody reads the ring while it is written, and nobody reads it while somebody else does. -/
theorem C110_exclusive {capacity : Nat} {b : LockedRing} (h : b.Reachable capacity) {j n i : Nat} {r : List Span} (hj : b.viewers[j]? = some (.scan n i r)) :
    (∀ l, b.writer ≠ .write l ∧ b.writer ≠ .advance l) ∧ ∀ (k n' i' : Nat) (r' : List Span), b.viewers[k]? = some (.scan n' i' r') → k = j := by
  have hl := (h.inv.viewerIn j).mpr ⟨n, i, r, hj⟩
  refine ⟨fun l => ⟨fun hw => ?_, fun hw => ?_⟩, fun k n' i' r' hk => ?_⟩
  · have := h.inv.writerIn.mpr ⟨l, .inl hw⟩
    rw [hl] at this; cases this
  · have := h.inv.writerIn.mpr ⟨l, .inr hw⟩
    rw [hl] at this; cases this
  · have := (h.inv.viewerIn k).mpr ⟨n', i', r', hk⟩
    rw [hl] at this; cases this; rfl

/-- C110: nothing panics. -/
theorem C110_no_panic {capacity : Nat} (hc : 0 < capacity) {b : LockedRing} (h : b.Reachable capacity) : ¬ b.Panics := by
  obtain ⟨h1, h2⟩ := h.length hc
  rintro (⟨s, rest, hw, hp⟩ | ⟨rest, hw, hp⟩)
  · have := h2 (fun l hl => by rw [hw] at hl; cases hl)
    omega
  · omega

/-- C110: every step is the start of something, or gets the others and itself closer to the end. So after finitely many steps, all calls have returned and all traces are stored. -/
theorem C110_work {capacity : Nat} (hc : 0 < capacity) {b b' : LockedRing} (h : b.Reachable capacity) (hs : Step b b') : Starts b b' ∨ b'.work capacity < b.work capacity := by
  obtain ⟨h1, _⟩ := h.length hc
  unfold work
  cases hs with
  | receive t hw => exact .inl (.inl ⟨hw, t, rfl⟩)
  | lock hw _ => right; rw [hw]; simp only [WriterPc.work]; omega
  | store hw _ => right; rw [hw]; simp only [WriterPc.work, List.length_cons]; omega
  | advance hw _ => right; rw [hw]; simp only [WriterPc.work]; omega
  | unlock hw => right; rw [hw]; simp only [WriterPc.work, List.length_nil]; omega
  | @call j hj => exact .inl (.inr ⟨j, hj, _, getElem?_set_of hj⟩)
  | @viewLock j n hj hl =>
    right
    have := sum_set (·.work capacity) (y := .scan n 0 []) hj
    simp only [ViewerPc.work] at this ⊢
    omega
  | @scan j n i r s hj hsp =>
    right
    obtain ⟨hi, _⟩ := List.getElem?_eq_some_iff.mp hsp
    have := sum_set (·.work capacity) (y := .scan n (i + 1) (if s.id ≠ 0 then r ++ [s] else r)) hj
    simp only [ViewerPc.work] at this ⊢
    omega
  | @viewUnlock j n i r hj he =>
    right
    have := sum_set (·.work capacity) (y := .idle) hj
    simp only [ViewerPc.work] at this ⊢
    omega

/-- C110: there is no deadlock: as long as anybody has anything to do, somebody can take a step that is not the start of something. -/
theorem C110_progress {capacity : Nat} (hc : 0 < capacity) {b : LockedRing} (h : b.Reachable capacity) (hb : b.writer ≠ .receive ∨ ∃ (j : Nat) (v : ViewerPc), b.viewers[j]? = some v ∧ v ≠ .idle) :
    ∃ b', Step b b' ∧ b'.work capacity < b.work capacity := by
  obtain ⟨h1, h2⟩ := h.length hc
  have hi := h.inv
  suffices ∃ b', Step b b' ∧ ¬ Starts b b' by
    obtain ⟨b', hs, hn⟩ := this
    exact ⟨b', hs, (C110_work hc h hs).resolve_left hn⟩
  have same : ∀ {b' : LockedRing}, b'.viewers = b.viewers → b.writer ≠ .receive → ¬ Starts b b' := by
    rintro b' hv hw (⟨h, _⟩ | ⟨j, hj, n, hj'⟩)
    · exact hw h
    · rw [hv, hj] at hj'; cases hj'
  have viewer : ∀ {b' : LockedRing} {j : Nat} {x y : ViewerPc}, b'.writer = b.writer → b.viewers[j]? = some x → x ≠ .idle → b'.viewers = b.viewers.set j y → ¬ Starts b b' := by
    rintro b' j x y hw hx hne hv (⟨h, t, h'⟩ | ⟨k, hk, n, hk'⟩)
    · rw [hw, h] at h'; cases h'
    · rw [hv] at hk'
      rcases getElem?_set_cases hk' with ⟨e, _⟩ | ⟨_, h'⟩
      · rw [e, hx] at hk; exact hne (Option.some.inj hk)
      · rw [hk] at h'; cases h'
  cases hl : b.lock with
  | some o =>
    cases o with
    | writer =>
      obtain ⟨l, hw | hw⟩ := hi.writerIn.mp hl
      · cases l with
        | nil => exact ⟨_, .unlock hw, same rfl (by rw [hw]; simp)⟩
        | cons s l =>
          have hp := h2 (fun l hl => by rw [hw] at hl; cases hl)
          exact ⟨_, .store hw (by omega), same rfl (by rw [hw]; simp)⟩
      · exact ⟨_, .advance hw (by omega), same rfl (by rw [hw]; simp)⟩
    | viewer j =>
      obtain ⟨n, i, r, hj⟩ := (hi.viewerIn j).mp hl
      obtain ⟨_, hle, _⟩ := hi.scanning j n i r hj
      by_cases he : i = b.ring.spans.length
      · exact ⟨_, .viewUnlock hj he, viewer rfl hj (by simp) rfl⟩
      · have hlt : i < b.ring.spans.length := by omega
        exact ⟨_, .scan hj (List.getElem?_eq_getElem hlt), viewer rfl hj (by simp) rfl⟩
  | none =>
    rcases hb with hb | ⟨j, v, hj, hv⟩
    · cases hw : b.writer with
      | receive => exact absurd hw hb
      | wait t => exact ⟨_, .lock hw hl, same rfl (by rw [hw]; simp)⟩
      | write l => have := hi.writerIn.mpr ⟨l, .inl hw⟩; rw [hl] at this; cases this
      | advance l => have := hi.writerIn.mpr ⟨l, .inr hw⟩; rw [hl] at this; cases this
    · cases v with
      | idle => exact absurd rfl hv
      | wait n => exact ⟨_, .viewLock hj hl, viewer rfl hj (by simp) rfl⟩
      | scan n i r => have := (hi.viewerIn j).mpr ⟨n, i, r, hj⟩; rw [hl] at this; cases this

/-- C110, an example: `ToSlice` is called when one of two spans of a trace is stored; it returns both. -/
theorem C110_witness : ∃ b : LockedRing, b.Reachable 2 ∧ b.views = [(0, 1, [{ id := 1 }, { id := 2 }])] := by
  have h0 : LockedRing.Reachable 2 { ring := Ring.new 2, viewers := List.replicate 1 .idle } := .init 1
  have h := h0.step (.receive [{ id := 1 }, { id := 2 }] rfl)
  have h := h.step (.lock rfl rfl)
  have h := h.step (.store rfl (by decide))
  have h := h.step (.call (j := 0) rfl)
  have h := h.step (.advance rfl (by decide))
  have h := h.step (.store rfl (by decide))
  have h := h.step (.advance rfl (by decide))
  have h := h.step (.unlock rfl)
  have h := h.step (.viewLock (j := 0) rfl rfl)
  have h := h.step (.scan (j := 0) rfl rfl)
  have h := h.step (.scan (j := 0) rfl rfl)
  have h := h.step (.viewUnlock (j := 0) rfl rfl)
  exact ⟨_, h, rfl⟩

end Verif
