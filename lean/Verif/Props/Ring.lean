import Verif.Proofs.Ring

/-!
# The admin view: C56, C57
-/

namespace Verif

/-- The ring with this capacity shows `view` after it received these traces. -/
def Shows (capacity : Nat) (traces : List (List Span)) (view : List Span) : Prop :=
  ∃ r, (Ring.new capacity).readFrom traces = some r ∧ r.toSlice = view

theorem shows_rotation {capacity : Nat} (hc : 0 < capacity) (traces : List (List Span)) :
    ∃ a b view, Shows capacity traces view ∧ lastOf capacity traces.flatten = a ++ b ∧ view = b.filter (fun s => s.Visible) ++ a.filter (fun s => s.Visible) ∧
      b.length = traces.flatten.length % capacity := by
  obtain ⟨r, h1, h2⟩ := rotated_read hc traces (rotated_new (cap := capacity))
  rw [List.nil_append] at h2
  obtain ⟨a, b, h3, h4, h5⟩ := h2.view hc
  exact ⟨a, b, _, ⟨r, h1, rfl⟩, h3, h4, h5⟩

theorem Shows.unique {capacity traces v w} (h : Shows capacity traces v) (h' : Shows capacity traces w) : v = w := by
  obtain ⟨r, h1, h2⟩ := h
  obtain ⟨r', h1', h2'⟩ := h'
  rw [h1] at h1'
  obtain rfl := Option.some.inj h1'
  rw [← h2, h2']

/-- C56: with any positive capacity nothing panics, and the view consists of the last spans that were received, without those with id zero. -/
theorem C56_last {capacity : Nat} (hc : 0 < capacity) (traces : List (List Span)) :
    ∃ view, Shows capacity traces view ∧ view.Perm ((lastOf capacity traces.flatten).filter (fun s => s.Visible)) := by
  obtain ⟨a, b, view, h1, h2, h3, _⟩ := shows_rotation hc traces
  refine ⟨view, h1, ?_⟩
  rw [h2, h3, List.filter_append]
  exact List.perm_append_comm

/-- C56, for what the forwarder sends (C55: no span with id zero). -/
theorem C56_exact {capacity : Nat} (hc : 0 < capacity) (traces : List (List Span)) (hid : ∀ s ∈ traces.flatten, s.id ≠ 0) :
    ∃ view, Shows capacity traces view ∧ view.Perm (lastOf capacity traces.flatten) ∧ view.length = min capacity traces.flatten.length := by
  obtain ⟨view, h1, h2⟩ := C56_last hc traces
  have : (lastOf capacity traces.flatten).filter (fun s => s.Visible) = lastOf capacity traces.flatten := by
    rw [List.filter_eq_self]
    intro s hs
    exact decide_eq_true (hid s (List.mem_of_mem_drop hs))
  rw [this] at h2
  refine ⟨view, h1, h2, ?_⟩
  rw [h2.length_eq]
  simp [lastOf]; omega

/-- A ring without capacity panics at the first span. The capacity is 2048 in main.go. -/
theorem C56_zero (s : Span) : ∀ view, ¬ Shows 0 [[s]] view := by
  rintro view ⟨r, h, _⟩
  cases h

theorem C56_witness : ∃ view, Shows 2 [[{ id := 1 }, { id := 2 }], [], [{ id := 3 }]] view ∧ view.map (·.id) = [3, 2] :=
  ⟨_, ⟨_, rfl, rfl⟩, by decide +kernel⟩

/-- The view is in order of reception. -/
def InOrder (capacity : Nat) (traces : List (List Span)) : Prop :=
  Shows capacity traces ((lastOf capacity traces.flatten).filter (fun s => s.Visible))

/-- C57, partial: the view is in order as long as the ring did not overflow, and whenever it has just been filled to its end. -/
theorem C57_order_partial {capacity : Nat} (hc : 0 < capacity) (traces : List (List Span))
    (h : traces.flatten.length ≤ capacity ∨ traces.flatten.length % capacity = 0) : InOrder capacity traces := by
  obtain ⟨a, b, view, h1, h2, h3, h4⟩ := shows_rotation hc traces
  unfold InOrder
  rw [h2, List.filter_append]
  by_cases hb : b = []
  · subst hb
    rw [h3] at h1
    simpa using h1
  · have hlen : traces.flatten.length < capacity := by
      rcases h with h | h
      · rcases Nat.lt_or_eq_of_le h with h | h
        · exact h
        · rw [h, Nat.mod_self] at h4
          exact absurd (List.eq_nil_of_length_eq_zero h4) hb
      · rw [h] at h4
        exact absurd (List.eq_nil_of_length_eq_zero h4) hb
    have ha : a = [] := by
      rw [lastOf_all _ _ (Nat.le_of_lt hlen)] at h2
      rw [Nat.mod_eq_of_lt hlen, h2] at h4
      simp at h4
      exact h4
    subst ha
    rw [h3] at h1
    simpa using h1

/-- C57 is false: in all other cases the view is not in order (if the ids are distinct). -/
theorem C57_fails {capacity : Nat} (hc : 0 < capacity) (traces : List (List Span)) (hid : ∀ s ∈ traces.flatten, s.id ≠ 0)
    (hd : (traces.flatten.map (·.id)).Nodup) (hover : capacity < traces.flatten.length) (hmod : traces.flatten.length % capacity ≠ 0) :
    ¬ InOrder capacity traces := by
  intro hin
  obtain ⟨a, b, view, h1, h2, h3, h4⟩ := shows_rotation hc traces
  have hv := Shows.unique h1 hin
  have hall : ∀ l : List Span, (∀ s ∈ l, s ∈ traces.flatten) → l.filter (fun s => s.Visible) = l := by
    intro l hl
    rw [List.filter_eq_self]
    intro s hs
    exact decide_eq_true (hid s (hl s hs))
  have hmem : ∀ s ∈ a ++ b, s ∈ traces.flatten := by
    intro s hs
    rw [← h2] at hs
    exact List.mem_of_mem_drop hs
  rw [hall b fun s hs => hmem s (List.mem_append_right _ hs), hall a fun s hs => hmem s (List.mem_append_left _ hs)] at h3
  rw [h2, hall _ hmem, h3] at hv
  -- both parts are not empty, so the heads differ
  have hlen : a.length + b.length = capacity := by
    have := lastOf_length capacity traces.flatten (Nat.le_of_lt hover)
    rw [h2, List.length_append] at this; exact this
  have hblt : b.length < capacity := by rw [h4]; exact Nat.mod_lt _ hc
  have hd' : ((a ++ b).map (·.id)).Nodup := by
    rw [← h2]
    exact hd.sublist ((List.drop_sublist _ _).map _)
  cases a with
  | nil => simp at hlen; omega
  | cons x a =>
    cases b with
    | nil => exact absurd h4.symm hmod
    | cons y b =>
      simp only [List.cons_append, List.cons.injEq] at hv
      rw [hv.1] at hd'
      simp at hd'

theorem C57_witness : ¬ InOrder 2 [[{ id := 1 }, { id := 2 }, { id := 3 }]] :=
  C57_fails (by decide) _ (by decide) (by decide) (by decide) (by decide)

theorem C57_order_witness : InOrder 2 [[{ id := 1 }, { id := 2 }], [{ id := 3 }, { id := 4 }]] :=
  C57_order_partial (by decide) _ (by decide)

end Verif
