import Verif.Spec.Handlers
import Verif.Props.Document

/-!
# Requests: C33
-/

namespace Verif

open Spec

theorem stringContains_iff (sub s : Str) : stringContains sub s = true ↔ sub <:+: s := by
  induction s with
  | nil =>
    simp only [stringContains, List.isPrefixOf_iff_prefix]
    constructor
    · intro h; exact h.isInfix
    · intro h; rw [List.eq_nil_of_infix_nil h]; exact List.nil_prefix
  | cons c l ih =>
    simp only [stringContains, Bool.or_eq_true, List.isPrefixOf_iff_prefix, ih, List.infix_cons_iff]

/-- C33: a request gives spans exactly if its type is right (version 1 only), it can be decompressed, and the parser gives these spans; it fails exactly if
one of these fails. -/
theorem C33_outcome (env : HandlerEnv) (fuel : Nat) (req : Request) :
    (∀ spans, handleRequest env fuel req = .spans spans ↔ req.TypeOk ∧ ∃ r, req.Delivers r ∧ BodyParses env fuel req.route r spans) ∧
    (handleRequest env fuel req = .err ↔ (∀ r, ¬ req.Delivers r) ∨ ¬ req.TypeOk ∨ ∃ r, req.Delivers r ∧ BodyFails env fuel req.route r) := by
  have parse : ∀ r, (∀ spans, parseRequest env fuel req.route req.contentType r = .spans spans ↔ req.TypeOk ∧ BodyParses env fuel req.route r spans) ∧
      (parseRequest env fuel req.route req.contentType r = .err ↔ ¬ req.TypeOk ∨ BodyFails env fuel req.route r) := by
    intro r
    unfold parseRequest Request.TypeOk BodyParses BodyFails
    cases hr : req.route with
    | v1 =>
      dsimp only
      by_cases hc : b!"application/json" <:+: req.contentType
      · rw [if_pos ((stringContains_iff _ _).mpr hc)]
        simp only [hc, reduceCtorEq, false_and, or_false, true_and, forall_const, not_true, false_or]
        constructor
        · intro spans
          constructor
          · intro h; exact ⟨_, Prod.ext h rfl⟩
          · rintro ⟨pool, h⟩; rw [h]
        · constructor
          · intro h; exact ⟨_, Prod.ext h rfl⟩
          · rintro ⟨pool, h⟩; rw [h]
      · rw [if_neg (fun h => hc ((stringContains_iff _ _).mp h))]
        simp [hc]
    | v2 => simp
    | jaeger =>
      simp only [parseJaeger, reduceCtorEq, false_and, true_and, false_implies, false_or, not_true]
      cases hd : env.decodeJaeger r with
      | none => simp
      | some d => simp; intro spans; exact eq_comm
  unfold handleRequest Request.Delivers
  by_cases hg : req.contentEncoding = b!"gzip"
  · simp only [if_pos hg]
    cases hu : req.unzipped with
    | none => simp
    | some r =>
      constructor
      · intro spans
        dsimp only
        rw [(parse r).1 spans]
        simp
      · dsimp only
        rw [(parse r).2]
        simp
  · simp only [if_neg hg]
    constructor
    · intro spans
      rw [(parse req.body).1 spans]
      simp
    · rw [(parse req.body).2]
      simp

theorem pushedBy_append (i : Nat) (l l' : List (Nat × Span)) : pushedBy i (l ++ l') = pushedBy i l ++ pushedBy i l' := by
  unfold pushedBy
  rw [List.filter_append, List.map_append]

/-- C33: under every schedule of concurrent requests, for every request: it is answered 202 only after exactly its spans, in order, are in the channel;
it is answered 400 only if its parser failed, and then it pushed nothing. The channel has exactly what the requests pushed. -/
theorem C33_all_or_nothing {capacity outcomes log taken h} (hr : Http.Reachable capacity outcomes log taken h) :
    h.conns.length = outcomes.length ∧ (∀ i o c, outcomes[i]? = some o → h.conns[i]? = some c → AllOrNothing o c (pushedBy i log)) ∧
    (∀ e ∈ log, e.1 < outcomes.length) ∧ log.map (·.2) = taken ++ h.channel := by
  induction hr with
  | init => exact ⟨rfl, by simp, by simp, rfl⟩
  | @arrive outcomes log taken h o _ ih =>
    obtain ⟨h1, h2, h3, h4⟩ := ih
    refine ⟨by simp [h1], ?_, ?_, h4⟩
    · intro i o' c ho hc
      by_cases hi : i < outcomes.length
      · rw [List.getElem?_append_left hi] at ho
        rw [List.getElem?_append_left (by rw [h1]; exact hi)] at hc
        exact h2 i o' c ho hc
      · have : i = outcomes.length := by
          have := (List.getElem?_eq_some_iff.mp ho).1
          simp at this; omega
        subst this
        rw [List.getElem?_append_right (Nat.le_refl _)] at ho
        rw [List.getElem?_append_right (by rw [h1]), h1] at hc
        simp at ho hc
        subst ho; subst hc
        have hp : pushedBy outcomes.length log = [] := by
          unfold pushedBy
          rw [List.map_eq_nil_iff, List.filter_eq_nil_iff]
          intro e he
          have := h3 e he
          simp
          omega
        rw [hp]
        cases o with
        | spans l => exact .pushing (pushed := [])
        | err => exact .failing
        | panic => exact .panicked
        | timeout => exact .waiting
    · intro e he
      have := h3 e he
      simp; omega
  | @step outcomes log taken h h' e _ hs ih =>
    obtain ⟨h1, h2, h3, h4⟩ := ih
    cases hs with
    | @push i s rest hi hc =>
      have hlt := (List.getElem?_eq_some_iff.mp hi).1
      refine ⟨by simp [h1], ?_, ?_, by simp [h4]⟩
      · intro j o c ho hcj
        rw [pushedBy_append]
        by_cases hj : i = j
        · subst hj
          rw [List.getElem?_set_self hlt, Option.some.injEq] at hcj
          subst hcj
          have := h2 i o _ ho hi
          generalize pushedBy i log = pushed at this
          cases this
          have e : pushedBy i (some (i, s)).toList = [s] := by simp [pushedBy]
          rw [e, show pushed ++ s :: rest = (pushed ++ [s]) ++ rest by simp]
          exact .pushing
        · rw [List.getElem?_set_ne hj] at hcj
          have e : pushedBy j (some (i, s)).toList = [] := by simp [pushedBy, hj]
          rw [e, List.append_nil]
          exact h2 j o c ho hcj
      · intro e he
        rcases List.mem_append.mp he with he | he
        · exact h3 e he
        · simp at he; subst he
          rw [← h1]; exact hlt
    | @accept i hi =>
      have hlt := (List.getElem?_eq_some_iff.mp hi).1
      simp only [Option.toList_none, List.append_nil]
      refine ⟨by simp [h1], ?_, h3, h4⟩
      intro j o c ho hcj
      by_cases hj : i = j
      · subst hj
        rw [List.getElem?_set_self hlt, Option.some.injEq] at hcj
        subst hcj
        have := h2 i o _ ho hi
        generalize pushedBy i log = pushed at this
        cases this
        rw [List.append_nil]
        exact .accepted
      · rw [List.getElem?_set_ne hj] at hcj
        exact h2 j o c ho hcj
    | @reject i hi =>
      have hlt := (List.getElem?_eq_some_iff.mp hi).1
      simp only [Option.toList_none, List.append_nil]
      refine ⟨by simp [h1], ?_, h3, h4⟩
      intro j o c ho hcj
      by_cases hj : i = j
      · subst hj
        rw [List.getElem?_set_self hlt, Option.some.injEq] at hcj
        subst hcj
        have := h2 i o _ ho hi
        generalize pushedBy i log = pushed at this
        cases this
        exact .rejected
      · rw [List.getElem?_set_ne hj] at hcj
        exact h2 j o c ho hcj
  | @take outcomes log taken h s rest _ hc ih =>
    obtain ⟨h1, h2, h3, h4⟩ := ih
    refine ⟨h1, h2, h3, ?_⟩
    rw [h4, hc]; simp

/-- C33: every request that was parsed or failed can make progress until it is answered, as long as the channel has room. -/
theorem C33_progress {capacity outcomes log taken h} (hr : Http.Reachable capacity outcomes log taken h) {i : Nat} {o : Parsed} (ho : outcomes[i]? = some o)
    (hp : o ≠ .panic) (ht : o ≠ .timeout) (hroom : h.channel.length < capacity) : (∃ code, h.conns[i]? = some (.answered code)) ∨ ∃ h' e, h.Step capacity h' e := by
  obtain ⟨h1, h2, _, _⟩ := C33_all_or_nothing hr
  have hi : i < h.conns.length := by rw [h1]; exact (List.getElem?_eq_some_iff.mp ho).1
  have hc := List.getElem?_eq_getElem hi
  have := h2 i o _ ho hc
  generalize h.conns[i] = c at this hc
  generalize pushedBy i log = pushed' at this
  cases this with
  | @pushing pushed pending =>
    right
    cases pending with
    | nil => exact ⟨_, _, .accept h hc⟩
    | cons s rest => exact ⟨_, _, .push h hc hroom⟩
  | accepted => exact .inl ⟨_, hc⟩
  | failing => exact .inr ⟨_, _, .reject h hc⟩
  | rejected => exact .inl ⟨_, hc⟩
  | panicked => exact absurd rfl hp
  | waiting => exact absurd rfl ht

/-- C33 with C26: a request of version 2 with a document that is read gives its spans, compressed or not. -/
theorem C33_document {data : Str} {spans : List Span} (h : ParsesV2 data spans) (env : HandlerEnv) (req : Request) (hroute : req.route = .v2) {r : Reader}
    (hd : req.Delivers r) (hr : r.data = data) (hfit : TokensFit env.buf.length data) (hb : 0 < env.buf.length) :
    Returns (fun fuel => handleRequest env fuel req) (.spans spans) := by
  obtain ⟨N, hN⟩ := h env.newCap r env.buf hr hfit hb
  refine ⟨N, fun fuel hf => ?_⟩
  refine ((C33_outcome env fuel req).1 spans).mpr ⟨fun he => ?_, r, hd, .inr (.inl ⟨hroute, hN fuel hf⟩)⟩
  rw [hroute] at he; cases he

/-- Two requests at the same time; one fails, the other one pushes two spans. -/
theorem C33_witness : ∃ h, Http.Reachable 256 [.spans [{ id := 1 }, { id := 2 }], .err] [(0, { id := 1 }), (0, { id := 2 })] [{ id := 1 }] h ∧
    h.conns[0]? = some (.answered 202) ∧ h.conns[1]? = some (.answered 400) :=
  ⟨_, .step (e := none) (.step (e := some (0, { id := 2 })) (.step (e := none) (.take (.step (log := []) (e := some (0, { id := 1 })) (.arrive _ (.arrive _ .init)) (.push _ (i := 0) rfl (by decide))) rfl)
    (.reject _ (i := 1) rfl)) (.push _ (i := 0) rfl (by decide))) (.accept _ (i := 0) rfl), rfl, rfl⟩

end Verif
