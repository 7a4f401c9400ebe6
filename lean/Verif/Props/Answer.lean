import Verif.Spec.Answer
import Verif.Props.Handlers
import Verif.Proofs.Settled

/-!
# C93: the answers, and the metrics of the handlers
-/

namespace Verif

/-- What Model/Handlers has of a stage. -/
def Stage.conn : Stage → Conn
  | .pushing _ _ l => .pushing l
  | .marked _ => .pushing []
  | .failed _ _ => .failing
  | .ready _ none => .pushing []
  | .ready _ (some _) => .failing
  | .unzippable _ => .failing
  | .answered a => .answered a.status
  | .dead => .dead

/-- … and of a request. -/
def Arrival.outcome (a : Arrival) : Parsed := handleRequest a.env a.fuel a.req

theorem conn_parsed (route : Route) (text : Str) (p : Parsed) : (Stage.parsed route text p).conn = Conn.start p := by cases p <;> rfl

theorem conn_start (a : Arrival) : (Stage.start a).conn = Conn.start a.outcome := by
  have key : ∀ body, (Stage.route a body).conn = Conn.start (parseRequest a.env a.fuel a.req.route a.req.contentType body) := by
    intro body
    unfold Stage.route parseRequest
    cases a.req.route with
    | v1 =>
      simp only
      by_cases h : stringContains b!"application/json" a.req.contentType = true
      · rw [if_pos h, if_pos h]; exact conn_parsed _ _ _
      · rw [if_neg h, if_neg h]; rfl
    | v2 => exact conn_parsed _ _ _
    | jaeger => exact conn_parsed _ _ _
  unfold Stage.start Arrival.outcome handleRequest
  by_cases h : a.req.contentEncoding = b!"gzip"
  · rw [if_pos h, if_pos h]
    cases a.req.unzipped with
    | none => rfl
    | some body => exact key body
  · rw [if_neg h, if_neg h]; exact key _

theorem map_set_same {α β} (f : α → β) {l : List α} {i : Nat} {x y : α} (h : l[i]? = some x) (e : f y = f x) : (l.set i y).map f = l.map f := by
  rw [List.map_set, e]
  apply List.ext_getElem?
  intro j
  by_cases hj : i = j
  · subst hj
    have hlt := (List.getElem?_eq_some_iff.mp h).1
    rw [List.getElem?_set_self (by simpa using hlt), List.getElem?_map, h]; rfl
  · rw [List.getElem?_set_ne hj]

/-- C93: the handlers with metrics do what those of C33 do. -/
theorem C93_refines {capacity arrivals log taken h} (hr : Handlers.Reachable capacity arrivals log taken h) :
    Http.Reachable capacity (arrivals.map Arrival.outcome) log taken { conns := h.stages.map Stage.conn, channel := h.channel } := by
  induction hr with
  | init => exact .init
  | arrive a _ ih =>
    have := Http.Reachable.arrive a.outcome ih
    simp only [List.map_append, List.map_cons, List.map_nil, conn_start]
    exact this
  | @step arrivals log taken h h' e _ hs ih =>
    have get : ∀ {i : Nat} {st : Stage}, h.stages[i]? = some st → (h.stages.map Stage.conn)[i]? = some st.conn := fun hi => by rw [List.getElem?_map, hi]; rfl
    cases hs with
    | push hi hc =>
      have := Http.Reachable.step ih (.push _ (get hi) hc)
      rw [List.map_set]
      exact this
    | mark hi =>
      simp only [Option.toList_none, List.append_nil]
      rw [map_set_same _ hi (by rfl)]
      exact ih
    | timeOk hi =>
      simp only [Option.toList_none, List.append_nil]
      rw [map_set_same _ hi (by rfl)]
      exact ih
    | timeErr hi =>
      simp only [Option.toList_none, List.append_nil]
      rw [map_set_same _ hi (by rfl)]
      exact ih
    | @answer i route err close hi hc =>
      rw [List.map_set]
      cases err with
      | none => exact Http.Reachable.step ih (.accept _ (get hi))
      | some text => exact Http.Reachable.step ih (.reject _ (get hi))
    | unzippable hi =>
      rw [List.map_set]
      exact Http.Reachable.step ih (.reject _ (get hi))
  | take _ hc ih => exact .take ih hc

/-- How the stage of a request fits to it. -/
inductive Fits (a : Arrival) (pushed : List Span) : Stage → Prop
  | pushing {r spans rest} : a.req.Delivers r → a.req.TypeOk → BodyParses a.env a.fuel a.req.route r spans → spans.length = pushed.length + rest.length →
      Fits a pushed (.pushing a.req.route spans.length rest)
  | marked {r spans} : a.req.Delivers r → a.req.TypeOk → BodyParses a.env a.fuel a.req.route r spans → Fits a pushed (.marked a.req.route)
  | failed {r} : a.req.Delivers r → a.req.TypeOk → BodyFails a.env a.fuel a.req.route r → Fits a pushed (.failed a.req.route (b!"parsing spans from json: " ++ a.text))
  | accepted {r spans} : a.req.Delivers r → a.req.TypeOk → BodyParses a.env a.fuel a.req.route r spans → Fits a pushed (.ready a.req.route none)
  | invalid {r} : a.req.Delivers r → a.req.TypeOk → BodyFails a.env a.fuel a.req.route r → Fits a pushed (.ready a.req.route (some (b!"parsing spans from json: " ++ a.text)))
  | unsupported {r} : a.req.Delivers r → ¬ a.req.TypeOk → Fits a pushed (.ready .v1 (some b!"only json spans are supported"))
  | unzippable : (∀ r, ¬ a.req.Delivers r) → Fits a pushed (.unzippable a.text)
  | answered {x} : AnswersTo a x → Fits a pushed (.answered x)
  | dead : ¬ a.GotParsed → Fits a pushed .dead

theorem fits_start (a : Arrival) : Fits a [] (Stage.start a) := by
  obtain ⟨hspans, herr⟩ := C33_outcome a.env a.fuel a.req
  have key : ∀ body, a.req.Delivers body → handleRequest a.env a.fuel a.req = parseRequest a.env a.fuel a.req.route a.req.contentType body → Fits a [] (Stage.route a body) := by
    intro body hd he
    by_cases ht : a.req.TypeOk
    · have hroute : Stage.route a body = Stage.parsed a.req.route a.text (handleRequest a.env a.fuel a.req) := by
        rw [he]
        unfold Stage.route parseRequest
        cases hr : a.req.route with
        | v1 =>
          have := (stringContains_iff _ _).mpr (ht hr)
          simp only [this, if_true]
        | v2 => rfl
        | jaeger => rfl
      rw [hroute]
      cases ho : handleRequest a.env a.fuel a.req with
      | spans l =>
        obtain ⟨_, r, h1, h2⟩ := (hspans l).mp ho
        exact .pushing h1 ht h2 (by simp)
      | err =>
        rcases herr.mp ho with h | h | ⟨r, h1, h2⟩
        · exact absurd hd (h body)
        · exact absurd ht h
        · exact .failed h1 ht h2
      | panic =>
        refine .dead ?_
        rintro ⟨r, h1, _, ⟨l, h2⟩ | h2⟩
        · have := (hspans l).mpr ⟨ht, r, h1, h2⟩; rw [ho] at this; cases this
        · have := herr.mpr (Or.inr (Or.inr ⟨r, h1, h2⟩)); rw [ho] at this; cases this
      | timeout =>
        refine .dead ?_
        rintro ⟨r, h1, _, ⟨l, h2⟩ | h2⟩
        · have := (hspans l).mpr ⟨ht, r, h1, h2⟩; rw [ho] at this; cases this
        · have := herr.mpr (Or.inr (Or.inr ⟨r, h1, h2⟩)); rw [ho] at this; cases this
    · have hr : a.req.route = .v1 := by
        cases hr : a.req.route with
        | v1 => rfl
        | v2 => exact absurd (fun h => by rw [hr] at h; cases h) ht
        | jaeger => exact absurd (fun h => by rw [hr] at h; cases h) ht
      have hc : ¬ stringContains b!"application/json" a.req.contentType = true := fun h => ht fun _ => (stringContains_iff _ _).mp h
      unfold Stage.route
      simp only [hr, hc]
      exact .unsupported hd ht
  unfold Stage.start
  by_cases h : a.req.contentEncoding = b!"gzip"
  · rw [if_pos h]
    cases hu : a.req.unzipped with
    | none =>
      refine .unzippable fun r hd => ?_
      unfold Request.Delivers at hd
      rw [if_pos h, hu] at hd; cases hd
    | some body =>
      refine key body ?_ ?_
      · unfold Request.Delivers; rw [if_pos h, hu]
      · unfold handleRequest; rw [if_pos h, hu]
  · rw [if_neg h]
    refine key _ ?_ ?_
    · unfold Request.Delivers; rw [if_neg h]
    · unfold handleRequest; rw [if_neg h]

theorem sum_range_change {f g : Nat → Nat} {i : Nat} (n : Nat) (h : ∀ j, j < n → j ≠ i → g j = f j) :
    i < n → ((List.range n).map g).sum + f i = ((List.range n).map f).sum + g i := by
  induction n with
  | zero => intro h; omega
  | succ n ih =>
    intro hi
    simp only [List.range_succ, List.map_append, List.sum_append, List.map_cons, List.map_nil, List.sum_cons, List.sum_nil]
    by_cases e : i = n
    · subst e
      have : (List.range i).map g = (List.range i).map f := List.map_congr_left fun j hj => h j (by have := List.mem_range.mp hj; omega) (by have := List.mem_range.mp hj; omega)
      rw [this]; omega
    · have := ih (fun j hj => h j (by omega)) (by omega)
      have := h n (by omega) (by omega)
      omega

theorem sum_range_congr {f g : Nat → Nat} (n : Nat) (h : ∀ j, j < n → g j = f j) : ((List.range n).map g).sum = ((List.range n).map f).sum := by
  rw [List.map_congr_left fun j hj => h j (List.mem_range.mp hj)]

theorem sum_range_le {f g : Nat → Nat} (n : Nat) (h : ∀ j, g j ≤ f j) : ((List.range n).map g).sum ≤ ((List.range n).map f).sum := by
  induction n with
  | zero => simp
  | succ n ih =>
    simp only [List.range_succ, List.map_append, List.sum_append, List.map_cons, List.map_nil, List.sum_cons, List.sum_nil]
    have := h n
    omega

theorem countP_sum (p : Nat → Bool) (l : List Nat) : l.countP p = (l.map fun i => if p i then 1 else 0).sum := by
  induction l with
  | nil => rfl
  | cons a l ih => rw [List.countP_cons, ih, List.map_cons, List.sum_cons]; omega

theorem metered_set {h h' : Handlers} {log log' : List (Nat × Span)} {i : Nat} {st st' : Stage} (hi : h.stages[i]? = some st) (hs : h'.stages = h.stages.set i st')
    (hl : ∀ j, j ≠ i → pushedBy j log' = pushedBy j log) :
    h'.metered log' + (if st.isMarked then (pushedBy i log).length else 0) = h.metered log + (if st'.isMarked then (pushedBy i log').length else 0) := by
  have hlt := (List.getElem?_eq_some_iff.mp hi).1
  have := sum_range_change (f := fun i => if (h.stages[i]?).any Stage.isMarked then (pushedBy i log).length else 0)
    (g := fun i => if (h'.stages[i]?).any Stage.isMarked then (pushedBy i log').length else 0) (i := i) h.stages.length
    (fun j _ hj => by rw [hs, List.getElem?_set_ne (Ne.symm hj), hl j hj]) hlt
  unfold Handlers.metered
  rw [show h'.stages.length = h.stages.length by rw [hs, List.length_set]]
  simp only [hi, Option.any_some] at this
  rw [show h'.stages[i]? = some st' by rw [hs, List.getElem?_set_self hlt], Option.any_some] at this
  exact this

open Classical in
theorem clocked_set {h h' : Handlers} {arrivals : List Arrival} {i : Nat} {a : Arrival} {st st' : Stage} (hi : h.stages[i]? = some st) (hs : h'.stages = h.stages.set i st')
    (ha : arrivals[i]? = some a) (r : Route) :
    h'.clocked arrivals r + (if st.isReady ∧ a.req.route = r ∧ a.GotParsed then 1 else 0) = h.clocked arrivals r + (if st'.isReady ∧ a.req.route = r ∧ a.GotParsed then 1 else 0) := by
  have hlt := (List.getElem?_eq_some_iff.mp hi).1
  have := sum_range_change (f := fun i => if (h.stages[i]?).any Stage.isReady ∧ ∃ a, arrivals[i]? = some a ∧ a.req.route = r ∧ a.GotParsed then 1 else 0)
    (g := fun i => if (h'.stages[i]?).any Stage.isReady ∧ ∃ a, arrivals[i]? = some a ∧ a.req.route = r ∧ a.GotParsed then 1 else 0) (i := i) h.stages.length
    (fun j _ hj => by rw [hs, List.getElem?_set_ne (Ne.symm hj)]) hlt
  unfold Handlers.clocked
  rw [countP_sum, countP_sum, show h'.stages.length = h.stages.length by rw [hs, List.length_set]]
  simp only [decide_eq_true_eq]
  simp only [hi, Option.any_some, ha, Option.some.injEq, exists_eq_left'] at this
  rw [show h'.stages[i]? = some st' by rw [hs, List.getElem?_set_self hlt], Option.any_some] at this
  exact this

theorem pushedBy_snoc_ne {i j : Nat} (log : List (Nat × Span)) (s : Span) (h : j ≠ i) : pushedBy j (log ++ [(i, s)]) = pushedBy j log := by
  rw [pushedBy_append]
  simp [pushedBy, Ne.symm h]

theorem pushedBy_snoc_self (i : Nat) (log : List (Nat × Span)) (s : Span) : pushedBy i (log ++ [(i, s)]) = pushedBy i log ++ [s] := by
  rw [pushedBy_append]
  simp [pushedBy]

theorem pushedBy_fresh {n : Nat} {log : List (Nat × Span)} (h : ∀ e ∈ log, e.1 < n) : pushedBy n log = [] := by
  unfold pushedBy
  rw [List.map_eq_nil_iff, List.filter_eq_nil_iff]
  intro e he
  have := h e he
  simp
  omega

/-- What holds in every state. -/
structure HandlersInv (arrivals : List Arrival) (log : List (Nat × Span)) (h : Handlers) : Prop where
  fits : ∀ i a st, arrivals[i]? = some a → h.stages[i]? = some st → Fits a (pushedBy i log) st
  meter : h.parsed = h.metered log
  timers : ∀ r, h.timed r = h.clocked arrivals r

theorem start_quiet (a : Arrival) : (Stage.start a).isMarked = false ∧ ((Stage.start a).isReady = true → ¬ a.GotParsed) := by
  have parsed : ∀ route text p, (Stage.parsed route text p).isMarked = false ∧ (Stage.parsed route text p).isReady = false := by
    intro route text p; cases p <;> exact ⟨rfl, rfl⟩
  have key : ∀ body, (Stage.route a body).isMarked = false ∧ ((Stage.route a body).isReady = true → ¬ a.GotParsed) := by
    intro body
    unfold Stage.route
    cases hr : a.req.route with
    | v1 =>
      dsimp only
      by_cases h : stringContains b!"application/json" a.req.contentType = true
      · rw [if_pos h]
        exact ⟨(parsed _ _ _).1, fun h' => absurd h' (by rw [(parsed _ _ _).2]; simp)⟩
      · rw [if_neg h]
        exact ⟨rfl, fun _ ⟨r, _, ht, _⟩ => h ((stringContains_iff _ _).mpr (ht hr))⟩
    | v2 => exact ⟨(parsed _ _ _).1, fun h' => absurd h' (by rw [(parsed _ _ _).2]; simp)⟩
    | jaeger => exact ⟨(parsed _ _ _).1, fun h' => absurd h' (by rw [(parsed _ _ _).2]; simp)⟩
  unfold Stage.start
  split
  · split
    · exact ⟨rfl, fun h => by cases h⟩
    · exact key _
  · exact key _

theorem handlersInv {capacity arrivals log taken h} (hr : Handlers.Reachable capacity arrivals log taken h) : HandlersInv arrivals log h := by
  induction hr with
  | init => exact ⟨by simp, rfl, fun r => rfl⟩
  | @arrive arrivals log taken h a hr ih =>
    obtain ⟨h1, _, h3, _⟩ := C33_all_or_nothing (C93_refines hr)
    simp only [List.length_map] at h1 h3
    have old : ∀ j, j < h.stages.length → (h.stages ++ [Stage.start a])[j]? = h.stages[j]? ∧ (arrivals ++ [a])[j]? = arrivals[j]? := fun j hj =>
      ⟨List.getElem?_append_left hj, List.getElem?_append_left (by omega)⟩
    have new : (h.stages ++ [Stage.start a])[h.stages.length]? = some (Stage.start a) ∧ (arrivals ++ [a])[h.stages.length]? = some a := by
      constructor
      · simp
      · rw [h1]; simp
    refine ⟨?_, ?_, fun r => ?_⟩
    · intro i b st hb hst
      by_cases hi : i < h.stages.length
      · dsimp only at hst
        rw [(old i hi).1] at hst
        rw [(old i hi).2] at hb
        exact ih.fits i b st hb hst
      · have : i = h.stages.length := by
          have := (List.getElem?_eq_some_iff.mp hb).1
          simp at this; omega
        subst this
        dsimp only at hst
        rw [new.1] at hst
        rw [new.2] at hb
        cases hb; cases hst
        rw [pushedBy_fresh (by rw [h1]; exact h3)]
        exact fits_start a
    · unfold Handlers.metered
      simp only [List.length_append, List.length_cons, List.length_nil, Nat.zero_add, List.range_succ, List.map_append, List.map_cons, List.map_nil, List.sum_append, List.sum_cons, List.sum_nil, new.1, Option.any_some,
        (start_quiet a).1]
      rw [sum_range_congr (f := fun i => if (h.stages[i]?).any Stage.isMarked then (pushedBy i log).length else 0) _ (fun j hj => by rw [(old j hj).1])]
      exact ih.meter
    · unfold Handlers.clocked
      simp only [List.length_append, List.length_cons, List.length_nil, Nat.zero_add, List.range_succ, List.countP_append, List.countP_cons, List.countP_nil, new.1, Option.any_some, new.2]
      rw [if_neg (by
        simp only [decide_eq_true_eq]
        rintro ⟨hq, b, hb, _, hg⟩
        rw [new.2] at hb
        rw [new.1] at hq
        cases hb
        exact (start_quiet a).2 hq hg)]
      rw [ih.timers r]
      unfold Handlers.clocked
      refine List.countP_congr fun j hj => ?_
      have hj := List.mem_range.mp hj
      rw [(old j hj).1, (old j hj).2]
  | @step arrivals log taken h h' e hr hs ih =>
    obtain ⟨h1, _, h3, _⟩ := C33_all_or_nothing (C93_refines hr)
    simp only [List.length_map] at h1 h3
    have arrival : ∀ {i : Nat} {st : Stage}, h.stages[i]? = some st → ∃ a, arrivals[i]? = some a := by
      intro i st hi
      have := (List.getElem?_eq_some_iff.mp hi).1
      exact ⟨_, List.getElem?_eq_getElem (by omega)⟩
    have fits : ∀ {i : Nat} {st st' : Stage} {a : Arrival} {log' : List (Nat × Span)}, h.stages[i]? = some st → arrivals[i]? = some a → (∀ j, j ≠ i → pushedBy j log' = pushedBy j log) →
        Fits a (pushedBy i log') st' → ∀ (j : Nat) b st'', arrivals[j]? = some b → (h.stages.set i st')[j]? = some st'' → Fits b (pushedBy j log') st'' := by
      intro i st st' a log' hi ha hl hf j b st'' hb hst
      by_cases hj : j = i
      · subst hj
        rw [List.getElem?_set_self (List.getElem?_eq_some_iff.mp hi).1] at hst
        rw [ha] at hb
        cases hst; cases hb; exact hf
      · rw [List.getElem?_set_ne (Ne.symm hj)] at hst
        rw [hl j hj]
        exact ih.fits j b st'' hb hst
    cases hs with
    | @push i route n s rest hi hc =>
      obtain ⟨a, ha⟩ := arrival hi
      have hf := ih.fits i a _ ha hi
      have hl : ∀ j, j ≠ i → pushedBy j (log ++ (some (i, s)).toList) = pushedBy j log := fun j hj => pushedBy_snoc_ne log s hj
      refine ⟨fits hi ha hl ?_, ?_, fun r => ?_⟩
      · cases hf with
        | pushing h1 h2 h3 h4 =>
          refine .pushing h1 h2 h3 ?_
          rw [show pushedBy i (log ++ (some (i, s)).toList) = _ from pushedBy_snoc_self i log s]
          simp at h4 ⊢; omega
      · have := metered_set (h' := { h with stages := h.stages.set i (.pushing route n rest), channel := h.channel ++ [s] }) hi rfl hl
        simp only [Stage.isMarked] at this
        have h5 := ih.meter
        simp at this ⊢; omega
      · have := clocked_set (h' := { h with stages := h.stages.set i (.pushing route n rest), channel := h.channel ++ [s] }) hi rfl ha r
        have h5 := ih.timers r
        simp [Stage.isReady] at this ⊢; omega
    | @mark i route n hi =>
      obtain ⟨a, ha⟩ := arrival hi
      have hf := ih.fits i a _ ha hi
      simp only [Option.toList_none, List.append_nil]
      have hn : Fits a (pushedBy i log) (.marked route) ∧ n = (pushedBy i log).length := by
        cases hf with
        | pushing h1 h2 h3 h4 => exact ⟨.marked h1 h2 h3, by simpa using h4⟩
      refine ⟨fits hi ha (fun j _ => rfl) hn.1, ?_, fun r => ?_⟩
      · have := metered_set (h' := { h with stages := h.stages.set i (.marked route), parsed := h.parsed + n }) hi rfl (log := log) (log' := log) (fun _ _ => rfl)
        simp only [Stage.isMarked] at this
        have h5 := ih.meter
        have h6 := hn.2
        simp at this ⊢; omega
      · have := clocked_set (h' := { h with stages := h.stages.set i (.marked route), parsed := h.parsed + n }) hi rfl ha r
        have h5 := ih.timers r
        simp [Stage.isReady] at this ⊢; omega
    | @timeOk i route hi =>
      obtain ⟨a, ha⟩ := arrival hi
      have hf := ih.fits i a _ ha hi
      simp only [Option.toList_none, List.append_nil]
      have hn : Fits a (pushedBy i log) (.ready route none) ∧ a.req.route = route ∧ a.GotParsed := by
        cases hf with
        | marked h1 h2 h3 => exact ⟨.accepted h1 h2 h3, rfl, ⟨_, h1, h2, Or.inl ⟨_, h3⟩⟩⟩
      refine ⟨fits hi ha (fun j _ => rfl) hn.1, ?_, fun r => ?_⟩
      · have := metered_set (h' := { h with stages := h.stages.set i (.ready route none), timed := fun r => if r = route then h.timed r + 1 else h.timed r }) hi rfl (log := log)
          (log' := log) (fun _ _ => rfl)
        simp only [Stage.isMarked] at this
        have h5 := ih.meter
        simp at this ⊢; omega
      · have := clocked_set (h' := { h with stages := h.stages.set i (.ready route none), timed := fun r => if r = route then h.timed r + 1 else h.timed r }) hi rfl ha r
        have h5 := ih.timers r
        simp [Stage.isReady, hn.2.1, hn.2.2] at this ⊢
        by_cases e : r = route
        · subst e; simp at this ⊢; omega
        · rw [if_neg (Ne.symm e)] at this; rw [if_neg e]; omega
    | @timeErr i route text hi =>
      obtain ⟨a, ha⟩ := arrival hi
      have hf := ih.fits i a _ ha hi
      simp only [Option.toList_none, List.append_nil]
      have hn : Fits a (pushedBy i log) (.ready route (some text)) ∧ a.req.route = route ∧ a.GotParsed := by
        cases hf with
        | failed h1 h2 h3 => exact ⟨.invalid h1 h2 h3, rfl, ⟨_, h1, h2, Or.inr h3⟩⟩
      refine ⟨fits hi ha (fun j _ => rfl) hn.1, ?_, fun r => ?_⟩
      · have := metered_set (h' := { h with stages := h.stages.set i (.ready route (some text)), timed := fun r => if r = route then h.timed r + 1 else h.timed r }) hi rfl (log := log)
          (log' := log) (fun _ _ => rfl)
        simp only [Stage.isMarked] at this
        have h5 := ih.meter
        simp at this ⊢; omega
      · have := clocked_set (h' := { h with stages := h.stages.set i (.ready route (some text)), timed := fun r => if r = route then h.timed r + 1 else h.timed r }) hi rfl ha r
        have h5 := ih.timers r
        simp [Stage.isReady, hn.2.1, hn.2.2] at this ⊢
        by_cases e : r = route
        · subst e; simp at this ⊢; omega
        · rw [if_neg (Ne.symm e)] at this; rw [if_neg e]; omega
    | @answer i route err close hi hc =>
      obtain ⟨a, ha⟩ := arrival hi
      have hf := ih.fits i a _ ha hi
      simp only [Option.toList_none, List.append_nil]
      have hn : Fits a (pushedBy i log) (.answered { answerFor err with close := close }) := by
        cases hf with
        | accepted h1 h2 h3 => exact .answered (.accepted close h1 h2 h3 hc)
        | invalid h1 h2 h3 => exact .answered (.invalid close h1 h2 h3 hc)
        | unsupported h1 h2 => exact .answered (.unsupported close h1 h2)
      refine ⟨fits hi ha (fun j _ => rfl) hn, ?_, fun r => ?_⟩
      · have := metered_set (h' := { h with stages := h.stages.set i (.answered { answerFor err with close := close }) }) hi rfl (log := log) (log' := log) (fun _ _ => rfl)
        have h5 := ih.meter
        cases err with
        | none => simp [Stage.isMarked, answerFor] at this ⊢; omega
        | some text => simp [Stage.isMarked, answerFor, httpError] at this ⊢; omega
      · have := clocked_set (h' := { h with stages := h.stages.set i (.answered { answerFor err with close := close }) }) hi rfl ha r
        simp only [Stage.isReady] at this
        rw [Nat.add_right_cancel this]
        exact ih.timers r
    | @unzippable i text hi =>
      obtain ⟨a, ha⟩ := arrival hi
      have hf := ih.fits i a _ ha hi
      simp only [Option.toList_none, List.append_nil]
      have hn : Fits a (pushedBy i log) (.answered (httpError text)) ∧ ¬ a.GotParsed := by
        cases hf with
        | unzippable h1 => exact ⟨.answered (.unzippable h1), fun ⟨r, h2, _⟩ => h1 r h2⟩
      refine ⟨fits hi ha (fun j _ => rfl) hn.1, ?_, fun r => ?_⟩
      · have := metered_set (h' := { h with stages := h.stages.set i (.answered (httpError text)) }) hi rfl (log := log) (log' := log) (fun _ _ => rfl)
        have h5 := ih.meter
        simp [Stage.isMarked, httpError] at this ⊢; omega
      · have := clocked_set (h' := { h with stages := h.stages.set i (.answered (httpError text)) }) hi rfl ha r
        have h5 := ih.timers r
        simp [Stage.isReady, hn.2] at this ⊢; omega
  | take _ hc ih => exact ⟨ih.fits, ih.meter, ih.timers⟩

/-- C93: whatever a handler answers is the answer to its request. -/
theorem C93_answer {capacity arrivals log taken h} (hr : Handlers.Reachable capacity arrivals log taken h) {i : Nat} {a : Arrival} {x : Answer} (ha : arrivals[i]? = some a)
    (hx : h.stages[i]? = some (.answered x)) : AnswersTo a x := by
  have := (handlersInv hr).fits i a _ ha hx
  cases this with
  | answered h => exact h

/-- C93: the meter has counted exactly the spans of the requests that passed it, … -/
theorem C93_meter {capacity arrivals log taken h} (hr : Handlers.Reachable capacity arrivals log taken h) : h.parsed = h.metered log := (handlersInv hr).meter

theorem log_length (n : Nat) (log : List (Nat × Span)) (h : ∀ e ∈ log, e.1 < n) : log.length = ((List.range n).map fun i => (pushedBy i log).length).sum := by
  have := (log_perm n log h).length_eq
  rw [List.length_flatMap, List.length_map] at this
  exact this.symm

/-- C93: … so never more spans than were put into the channel, and as many when no handler is between the channel and the meter. -/
theorem C93_meter_bound {capacity arrivals log taken h} (hr : Handlers.Reachable capacity arrivals log taken h) :
    h.parsed ≤ (taken ++ h.channel).length ∧ ((∀ route n l, .pushing route n l ∉ h.stages) → h.parsed = (taken ++ h.channel).length) := by
  obtain ⟨h1, h2, h3, h4⟩ := C33_all_or_nothing (C93_refines hr)
  simp only [List.length_map] at h1 h3
  have hlen : (taken ++ h.channel).length = ((List.range h.stages.length).map fun i => (pushedBy i log).length).sum := by
    rw [← h4, List.length_map, h1]; exact log_length _ _ h3
  rw [C93_meter hr, hlen]
  unfold Handlers.metered
  constructor
  · exact sum_range_le _ fun i => by split <;> omega
  · intro hp
    refine sum_range_congr _ fun i hi => ?_
    obtain ⟨st, hst⟩ : ∃ st, h.stages[i]? = some st := ⟨_, List.getElem?_eq_getElem hi⟩
    rw [hst, Option.any_some]
    by_cases hm : st.isMarked = true
    · rw [if_pos hm]
    · rw [if_neg hm]
      have hc := h2 i _ st.conn (by rw [List.getElem?_map, List.getElem?_eq_getElem (show i < arrivals.length by omega)]; rfl) (by rw [List.getElem?_map, hst]; rfl)
      generalize pushedBy i log = q at hc
      generalize Arrival.outcome arrivals[i] = o at hc
      cases st with
      | pushing route n l => exact absurd (List.mem_of_getElem? hst) (hp _ _ _)
      | marked r => exact absurd rfl hm
      | failed r t => cases hc; rfl
      | ready r e =>
        cases e with
        | none => exact absurd rfl hm
        | some t => cases hc; rfl
      | unzippable t => cases hc; rfl
      | answered x =>
        simp only [Stage.conn] at hc
        cases x with
        | mk status body close =>
          dsimp only at hc
          cases hc with
          | accepted => exact absurd rfl hm
          | rejected => rfl
      | dead => cases hc <;> rfl

/-- C93: the timer of a route has counted exactly the requests whose body was parsed, well or badly; refused types and broken compression are not counted. -/
theorem C93_timers {capacity arrivals log taken h} (hr : Handlers.Reachable capacity arrivals log taken h) (r : Route) : h.timed r = h.clocked arrivals r := (handlersInv hr).timers r

/-- Three requests at the same time: one is accepted, one cannot be parsed, one has the wrong type. -/
theorem C93_witness : ∃ arrivals log taken h, Handlers.Reachable 256 arrivals log taken h ∧ h.stages[0]? = some (.answered { status := 202, close := false }) ∧
    h.stages[1]? = some (.answered { status := 400, body := b!"parsing spans from json: EOF\n" }) ∧
    h.stages[2]? = some (.answered { status := 400, body := b!"only json spans are supported\n", close := true }) ∧ h.parsed = 1 ∧ h.timed .jaeger = 2 ∧ h.timed .v1 = 0 := by
  let body : Reader := { data := [], script := [], failing := false, idle := false }
  let req : Request := { route := .jaeger, contentType := [], contentEncoding := [], body, unzipped := none }
  let env : HandlerEnv := { newCap := fun _ _ => 0, decodeJaeger := fun _ => none, buf := [], pool := [] }
  let good : Arrival := { env := { env with decodeJaeger := fun _ => some [{ spans := [{}], processes := ∅ }] }, fuel := 0, req, text := [] }
  let bad : Arrival := { env, fuel := 0, req, text := b!"EOF" }
  let ugly : Arrival := { env, fuel := 0, req := { req with route := .v1, contentType := b!"application/x-thrift" }, text := [] }
  have h0 := Handlers.Reachable.init (capacity := 256)
  have h1 := (((h0.arrive good).arrive bad).arrive ugly)
  have h2 := h1.step (.push _ (i := 0) rfl (by decide))
  have h3 := h2.step (.timeErr _ (i := 1) rfl)
  have h4 := h3.step (.mark _ (i := 0) rfl)
  have h5 := h4.step (.answer _ (i := 2) true rfl (fun _ => rfl))
  have h6 := h5.step (.timeOk _ (i := 0) rfl)
  have h7 := h6.step (.answer _ (i := 1) false rfl (fun h => by cases h))
  have h8 := h7.step (.answer _ (i := 0) false rfl (fun h => by cases h))
  exact ⟨_, _, _, _, h8, rfl, rfl, rfl, rfl, rfl, rfl⟩

end Verif
