import Verif.Model.Consume

/-!
# Closing the consumer: C71
-/

namespace Verif

/-- The callback is running. -/
def Consumer.Calling (c : Consumer) : Prop := ∃ l, c.loop = .session l ∧ true ∈ l

theorem Consumer.Steps.trans {a b c : Consumer} (h : a.Steps b) (h' : b.Steps c) : a.Steps c := by
  induction h' with
  | refl => exact h
  | step _ hs ih => exact .step ih hs

structure ConsumerInv (c : Consumer) : Prop where
  finished : c.loop = .finished → c.cancelled = true
  returned : .returned ∈ c.closers → c.loop = .finished
  closed : c.closers ≠ [] ↔ c.cancelled = true

theorem ConsumerInv.step {c d : Consumer} (inv : ConsumerInv c) (h : c.Step d) : ConsumerInv d := by
  obtain ⟨h1, h2, h3⟩ := inv
  cases h with
  | finish hl hc => exact ⟨fun _ => hc, fun _ => rfl, h3⟩
  | session hl hc => exact ⟨fun h => (by cases h), fun h => (by have := h2 h; rw [hl] at this; cases this), h3⟩
  | claim hl => exact ⟨fun h => (by cases h), fun h => (by have := h2 h; rw [hl] at this; cases this), h3⟩
  | call hl hi => exact ⟨fun h => (by cases h), fun h => (by have := h2 h; rw [hl] at this; cases this), h3⟩
  | done hl hi => exact ⟨fun h => (by cases h), fun h => (by have := h2 h; rw [hl] at this; cases this), h3⟩
  | claimEnd hl => exact ⟨fun h => (by cases h), fun h => (by have := h2 h; rw [hl] at this; cases this), h3⟩
  | sessionEnd hl => exact ⟨fun h => (by cases h), fun h => (by have := h2 h; rw [hl] at this; cases this), h3⟩
  | close =>
    refine ⟨fun _ => rfl, fun h => ?_, by simp⟩
    rcases List.mem_append.mp h with h | h
    · exact h2 h
    · simp at h
  | closed hi hl =>
    refine ⟨h1, fun _ => hl, ?_⟩
    rw [← h3]
    simp

theorem Consumer.inv {c : Consumer} (h : Consumer.Steps {} c) : ConsumerInv c := by
  induction h with
  | refl => exact ⟨fun h => (by cases h), fun h => (by cases h), by simp⟩
  | step _ hs ih => exact ih.step hs

theorem Consumer.finished_stays {c d : Consumer} (hf : c.loop = .finished) (h : c.Steps d) : d.loop = .finished ∧ d.calls = c.calls ∧ d.sessions = c.sessions := by
  induction h with
  | refl => exact ⟨hf, rfl, rfl⟩
  | step _ hs ih =>
    obtain ⟨h1, h2, h3⟩ := ih
    cases hs with
    | close => exact ⟨h1, h2, h3⟩
    | closed => exact ⟨h1, h2, h3⟩
    | finish hl => rw [h1] at hl; cases hl
    | session hl => rw [h1] at hl; cases hl
    | claim hl => rw [h1] at hl; cases hl
    | call hl => rw [h1] at hl; cases hl
    | done hl => rw [h1] at hl; cases hl
    | claimEnd hl => rw [h1] at hl; cases hl
    | sessionEnd hl => rw [h1] at hl; cases hl

/-- C71: once a call of the close function has returned, the callback is not running and is never called again, and no session is started, in all schedules. -/
theorem C71_closed {c : Consumer} (h : Consumer.Steps {} c) (hr : .returned ∈ c.closers) {d : Consumer} (hd : c.Steps d) : ¬ d.Calling ∧ d.calls = c.calls ∧ d.sessions = c.sessions := by
  obtain ⟨h1, h2, h3⟩ := Consumer.finished_stays ((Consumer.inv h).returned hr) hd
  refine ⟨?_, h2, h3⟩
  rintro ⟨l, hl, _⟩
  rw [h1] at hl; cases hl

/-- C71: as long as nobody closes it, it consumes: whatever the sessions ended with, the next one is started. -/
theorem C71_restarts {c : Consumer} (h : Consumer.Steps {} c) (hn : c.closers = []) :
    (∃ l, c.loop = .session l) ∨ ∃ d, c.Step d ∧ d.loop = .session [] ∧ d.sessions = c.sessions + 1 := by
  have inv := Consumer.inv h
  have hc : c.cancelled = false := by
    cases hc : c.cancelled with
    | false => rfl
    | true => exact absurd hn (inv.closed.mpr hc)
  cases hl : c.loop with
  | session l => exact .inl ⟨l, rfl⟩
  | select => exact .inr ⟨_, .session hl hc, rfl, rfl⟩
  | finished => rw [inv.finished hl] at hc; cases hc

/-- C71: after close is called at most the running session goes on: no other is started, … -/
theorem C71_last_session {c : Consumer} (h : Consumer.Steps {} c) (hn : c.closers ≠ []) {d : Consumer} (hd : c.Steps d) : d.sessions = c.sessions := by
  have hc := (Consumer.inv h).closed.mp hn
  suffices key : d.cancelled = true ∧ d.sessions = c.sessions from key.2
  induction hd with
  | refl => exact ⟨hc, rfl⟩
  | step _ hs ih =>
    obtain ⟨h1, h2⟩ := ih
    cases hs with
    | session _ hcc => rw [h1] at hcc; cases hcc
    | close => exact ⟨rfl, h2⟩
    | _ => exact ⟨h1, h2⟩

/-- … and close returns once this session is over. -/
theorem C71_returns {c : Consumer} (h : Consumer.Steps {} c) {i : Nat} (hi : c.closers[i]? = some .waiting) (hs : ∀ l, c.loop = .session l → l = []) :
    ∃ d, c.Steps d ∧ d.closers[i]? = some .returned := by
  have hc := (Consumer.inv h).closed.mp (fun e => by rw [e] at hi; simp at hi)
  have hlt := (List.getElem?_eq_some_iff.mp hi).1
  have fin : ∀ {d : Consumer}, c.Steps d → d.closers = c.closers → d.loop = .finished → ∃ d, c.Steps d ∧ d.closers[i]? = some .returned := by
    intro d hd hcl hf
    exact ⟨_, .step hd (.closed (by rw [hcl]; exact hi) hf), by dsimp only; rw [hcl]; exact List.getElem?_set_self hlt⟩
  cases hl : c.loop with
  | finished => exact fin .refl rfl hl
  | select => exact fin (.step .refl (.finish hl hc)) rfl rfl
  | session l =>
    rw [hs l hl] at hl
    exact fin (.step (.step .refl (.sessionEnd hl)) (.finish rfl hc)) rfl rfl

/-- A session with one call, then close, which returns after the session. -/
theorem C71_witness : ∃ c : Consumer, Consumer.Steps {} c ∧ c.calls = 1 ∧ .returned ∈ c.closers := by
  refine ⟨_, .step (.step (.step (.step (.step (.step (.step (.step (.step .refl (.session rfl rfl)) (.claim rfl)) (.call (i := 0) rfl rfl)) .close) (.done (i := 0) rfl rfl))
    (.claimEnd (l := []) (l' := []) rfl)) (.sessionEnd rfl)) (.finish rfl rfl)) (.closed (i := 0) rfl rfl), rfl, ?_⟩
  simp

end Verif
