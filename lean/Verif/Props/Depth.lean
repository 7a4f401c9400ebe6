import Verif.Proofs.Depth
import Verif.Props.Jaeger

/-!
# How deep calls are nested while a request is parsed (C94)
-/

namespace Verif

open Spec

/-- A request of version 2 with this body, however delivered, is parsed with at most so many calls at the same time, and this is reached. -/
def NestsV2 (data : Str) (n : Nat) : Prop :=
  ∀ (newCap : Nat → Nat → Nat) (r : Reader) (buf : List UInt8), r.data = data → TokensFit buf.length data → 0 < buf.length →
    Returns (fun fuel => callsJsonV2 newCap fuel r buf) n

/-- The same for version 1, on whatever pooled slice. -/
def NestsV1 (data : Str) (n : Nat) : Prop :=
  ∀ (newCap : Nat → Nat → Nat) (r : Reader) (buf : List UInt8) (pool : List SpanV1), r.data = data → TokensFit buf.length data → 0 < buf.length →
    Returns (fun fuel => callsJsonV1 newCap fuel r buf pool) n

theorem calls_of_stream {σ : Type} (d : Nat → Prog σ) {data : Str} {n N : Nat} (h : ∀ fuel, N ≤ fuel → (d fuel).stream false data ≠ .bad ∧ (d fuel).callsOn false data 0 = n)
    (r : Reader) (buf : List UInt8) (hr : r.data = data) (hfit : TokensFit buf.length data) (h0 : 0 < buf.length) :
    Returns (fun fuel => (d fuel).calls fuel (Parser.newWithReader r buf) 0) n := by
  refine ⟨N + (Parser.newWithReader r buf).work + 1, fun fuel hf => ?_⟩
  obtain ⟨h1, h2⟩ := h fuel (by omega)
  have := Prog.calls_agrees h0 (d fuel) fuel (Parser.newWithReader r buf) false 0 (newWithReader_ok r buf) (Nat.le_refl _) (by omega)
    (by rw [newWithReader_rest, hr]; exact (d fuel).fits_tokens h0 hfit) (by simp) (by rw [newWithReader_rest, hr]; exact h1)
  rw [newWithReader_rest, hr, h2] at this
  exact this

theorem calls_bound {σ : Type} (d : Nat → Prog σ) {data : Str} (h : ∀ fuel, (d fuel).Safe false)
    (r : Reader) (buf : List UInt8) (hr : r.data = data) (hfit : TokensFit buf.length data) (h0 : 0 < buf.length) :
    ∃ enough, ∀ fuel, enough ≤ fuel → (d fuel).calls fuel (Parser.newWithReader r buf) 0 ≤ opening data := by
  refine ⟨(Parser.newWithReader r buf).work + 1, fun fuel hf => ?_⟩
  have := Prog.calls_agrees h0 (d fuel) fuel (Parser.newWithReader r buf) false 0 (newWithReader_ok r buf) (Nat.le_refl _) (by omega)
    (by rw [newWithReader_rest, hr]; exact (d fuel).fits_tokens h0 hfit) (by simp) ((h fuel).stream _ (by simp))
  rw [newWithReader_rest, hr] at this
  rw [this]
  have := (d fuel).callsOn_le false data 0
  omega

/-! ### What holds -/

/-- An accepted body of version 2: the calls are nested exactly as deep as its arrays and objects. -/
theorem C94_v2_partial {data : Str} {l : List Loose} {vs : List SpanV2} (h : Body data l) (hl : l.mapM Loose.toSpanV2 = some vs) : NestsV2 data (Loose.array l).nesting := by
  obtain ⟨w, t, s, rfl, hw, hb⟩ := h
  intro newCap r buf hr hfit h0
  have hfill := fill_const Loose.toSpanV2 l (absSlice ({} : SpanV2) id { cells := [], len := 0 })
  rw [hl] at hfill
  obtain ⟨m, hm, _⟩ := Option.map_eq_some_iff.mp hfill
  obtain ⟨m', N, _, hN⟩ := (exact_bodyV2 newCap).complete (m := { cells := [], len := 0 }) hb hm
  refine calls_of_stream (fun fuel => decoderSliceSpanV2 newCap fuel { cells := [], len := 0 }) (N := N) (fun fuel hf => ?_) r buf hr hfit h0
  have hst := hN fuel hf w false hw
  refine ⟨by rw [hst]; simp, ?_⟩
  rw [Prog.callsOn_value _ 0 hst hw hb, Nat.zero_add]

/-- An accepted body of version 1: the same. -/
theorem C94_v1_partial {data : Str} {l : List Loose} (h : Body data l) (hl : ∀ v ∈ l, v.toMemV1 {} ≠ none) : NestsV1 data (Loose.array l).nesting := by
  obtain ⟨w, t, s, rfl, hw, hb⟩ := h
  intro newCap r buf pool hr hfit h0
  cases hm : (absSlice ({} : SpanV1) absV1 { cells := pool, len := 0 }).fill Loose.toMemV1 0 l with
  | none => exact absurd hm ((fill_accepts l 0 _).mpr hl)
  | some m =>
    obtain ⟨m', N, _, hN⟩ := (exact_bodyV1 newCap).complete (m := { cells := pool, len := 0 }) hb hm
    refine calls_of_stream (fun fuel => decoderSliceSpanV1 newCap fuel { cells := pool, len := 0 }) (N := N) (fun fuel hf => ?_) r buf hr hfit h0
    have hst := hN fuel hf w false hw
    refine ⟨by rw [hst]; simp, ?_⟩
    rw [Prog.callsOn_value _ 0 hst hw hb, Nat.zero_add]

/-- Every body, also one that is rejected: there are at most as many calls as opening brackets and braces. -/
theorem C94_bound_partial (newCap : Nat → Nat → Nat) (r : Reader) (buf : List UInt8) (pool : List SpanV1) (hfit : TokensFit buf.length r.data) (h0 : 0 < buf.length) :
    (∃ enough, ∀ fuel, enough ≤ fuel → callsJsonV2 newCap fuel r buf ≤ opening r.data) ∧
    (∃ enough, ∀ fuel, enough ≤ fuel → callsJsonV1 newCap fuel r buf pool ≤ opening r.data) :=
  ⟨calls_bound _ (decodesV2 newCap).safe r buf rfl hfit h0, calls_bound _ (decodesV1 newCap pool).safe r buf rfl hfit h0⟩

/-- What is counted: for `skip`, the depth of its recursion. -/
theorem C94_measure (fuel : Nat) (next : JType) (p : Parser) :
    (skipDeep fuel 0 0 next).run fuel p = match (skip fuel next).run fuel p with
      | .ok _ p' => .ok ((skip fuel next).calls fuel p 0) p'
      | .err _ p' => .err ((skip fuel next).calls fuel p 0) p'
      | .panic => .panic
      | .timeout => .timeout := by
  rw [← ((skip_counting fuel).1 next 0 0 (Nat.le_refl _)).2, Prog.counting_run _ _ _ (Nat.le_refl _)]
  simp only [Nat.zero_max]
  cases (skip fuel next).run fuel p <;> rfl

/-! ### There is no limit -/

/-- A span with a member that the program does not know: arrays in each other. -/
def deepBody (n : Nat) : Str := b!"[{\"x\":" ++ (List.replicate (n + 1) c!"[" ++ (List.replicate (n + 1) c!"]" ++ b!"}]"))

/-- The value of that member. -/
def deepLoose : Nat → Loose
  | 0 => .array []
  | n + 1 => .array [deepLoose n]

theorem deepLoose_nesting (n : Nat) : (deepLoose n).nesting = n + 1 := by
  induction n with
  | zero => simp [deepLoose, Loose.nesting, elementsNesting]
  | succ n ih => simp [deepLoose, Loose.nesting, elementsNesting, ih]

theorem deepLoose_begins (n : Nat) (s : Str) : Begins (deepLoose n) (List.replicate (n + 1) c!"[" ++ (List.replicate (n + 1) c!"]" ++ s)) s := by
  induction n generalizing s with
  | zero => exact .array (.nil (w := []) (by decide))
  | succ n ih =>
    have h := ih (c!"]" :: s)
    have e : List.replicate (n + 1 + 1) c!"[" ++ (List.replicate (n + 1 + 1) c!"]" ++ s) = c!"[" :: (List.replicate (n + 1) c!"[" ++ (List.replicate (n + 1) c!"]" ++ c!"]" :: s)) := by
      rw [List.replicate_succ (n := n + 1) (a := c!"["), List.replicate_succ' (n := n + 1) (a := c!"]")]
      simp
    rw [e]
    exact .array (.cons (w := []) (by decide) h (.nil (w := []) (by decide)))

theorem deepBody_body (n : Nat) : Body (deepBody n) [.object [(b!"x", deepLoose n)]] := by
  refine ⟨[], _, [], rfl, by decide, .array (.cons (w := []) (u := b!"]") (by decide) (.object (.cons (w := []) (lit := b!"x") (w' := b!":") (u := b!"}]") (by decide)
    ⟨.char (by decide) (by decide) .nil, by decide⟩ (by decide) (deepLoose_begins n b!"}]") (.nil (w := []) (by decide)))) (.nil (w := []) (by decide)))⟩

theorem deepBody_writes (n : Nat) : ∃ j, Writes JsonNumber j (deepBody n) := by
  have h := deepArray_writes n
  refine ⟨.array [.object [(b!"x", deepArray n)]], ?_⟩
  have h1 := Writes.object (WritesMembers.last (w := []) (lit := b!"x") (w1 := []) (w2 := []) (w' := []) (by decide) ⟨_, text_json (by decide)⟩ (by decide) (by decide) h (by decide))
  have h2 := Writes.array (WritesElements.last (w := []) (w' := []) (by decide) h1 (by decide))
  simpa [deepBody] using h2

theorem deepBody_fits (n : Nat) {size : Nat} (h : 2 ≤ size) : TokensFit size (deepBody n) := by
  have hz : ∀ (c : UInt8) (k : Nat) (s : Str), LexState.start c = .between → FitsFrom size .between s → FitsFrom size .between (List.replicate k c ++ s) := by
    intro c k s hc hs
    induction k with
    | zero => exact hs
    | succ k ih =>
      rw [List.replicate_succ]
      simp only [List.cons_append, FitsFrom, LexState.next, hc]
      exact ⟨by simp only [LexState.size]; omega, ih⟩
  have hend : FitsFrom size .between b!"}]" := by
    simp [FitsFrom, LexState.next, LexState.start, NumberStart, LexState.size]
    omega
  have := hz c!"[" (n + 1) _ (by decide) (hz c!"]" (n + 1) _ (by decide) hend)
  refine ⟨?_, ?_, ?_, ?_, ?_, ?_, this⟩ <;> (simp [LexState.next, LexState.start, NumberStart, LexState.size]; try omega)

/-- The number of nested calls is not bounded: for every `n` there is a JSON document of `2 n + 10` bytes, which is accepted by version 1 and by version 2, and needs
`n + 3` calls at the same time, however it is delivered. (It fits into the buffer of the parser.) -/
theorem C94_fails (n : Nat) : (deepBody n).length = 2 * n + 10 ∧ (∃ j, Writes JsonNumber j (deepBody n)) ∧ (∀ size, 2 ≤ size → TokensFit size (deepBody n)) ∧
    BodyV2 (deepBody n) [{}] ∧ NestsV2 (deepBody n) (n + 3) ∧ IsBodyV1 (deepBody n) ∧ NestsV1 (deepBody n) (n + 3) := by
  have hb := deepBody_body n
  have h2 : [Loose.object [(b!"x", deepLoose n)]].mapM Loose.toSpanV2 = some [{}] := rfl
  have h1 : ∀ v ∈ [Loose.object [(b!"x", deepLoose n)]], v.toMemV1 {} ≠ none := by
    simp [Loose.toMemV1, Loose.members, spanV1Member, MemV1.clear]
  have hn : (Loose.array [.object [(b!"x", deepLoose n)]]).nesting = n + 3 := by simp [Loose.nesting, elementsNesting, membersNesting, deepLoose_nesting]
  refine ⟨?_, deepBody_writes n, fun size hs => deepBody_fits n hs, ⟨_, hb, h2⟩, hn ▸ C94_v2_partial hb h2, ⟨_, hb, h1⟩, hn ▸ C94_v1_partial hb h1⟩
  simp [deepBody]
  omega

/-- So there is no bound, for any size of the buffer from 2 bytes on. -/
theorem C94_unbounded (newCap : Nat → Nat → Nat) (buf : List UInt8) (hb : 2 ≤ buf.length) (pool : List SpanV1) :
    (¬ ∃ limit, ∀ r fuel, callsJsonV2 newCap fuel r buf ≤ limit) ∧ ¬ ∃ limit, ∀ r fuel, callsJsonV1 newCap fuel r buf pool ≤ limit := by
  constructor
  · rintro ⟨limit, h⟩
    obtain ⟨_, _, hfit, _, hn, _⟩ := C94_fails limit
    let r : Reader := { data := deepBody limit, script := [], failing := false, idle := false }
    obtain ⟨N, hN⟩ := hn newCap r buf rfl (hfit _ hb) (by omega)
    have h1 := hN N (Nat.le_refl _)
    have h2 := h r N
    simp only at h1
    omega
  · rintro ⟨limit, h⟩
    obtain ⟨_, _, hfit, _, _, _, hn⟩ := C94_fails limit
    let r : Reader := { data := deepBody limit, script := [], failing := false, idle := false }
    obtain ⟨N, hN⟩ := hn newCap r buf pool rfl (hfit _ hb) (by omega)
    have h1 := hN N (Nat.le_refl _)
    have h2 := h r N
    simp only at h1
    omega

/-- Brackets within strings do not count; a body that is rejected after its second bracket. -/
theorem C94_witness : NestsV2 b!"[{\"name\":\"[[\"}]" 2 ∧ callsJsonV2 (fun _ n => n) 50 { data := b!"[{\"x\":[{1", script := [], failing := false, idle := false } (List.replicate 8 0) = 4 := by
  constructor
  · have hb : Body b!"[{\"name\":\"[[\"}]" [.object [(b!"name", .string b!"[[")]] := by
      refine ⟨[], _, [], rfl, by decide, .array (.cons (w := []) (u := b!"]") (by decide) (.object (.cons (w := []) (lit := b!"name") (w' := b!":") (t := b!"\"[[\"}]") (u := b!"}]") (by decide)
        ⟨.char (by decide) (by decide) (.char (by decide) (by decide) (.char (by decide) (by decide) (.char (by decide) (by decide) .nil))), by decide⟩ (by decide)
        (.string (lit := b!"[[") ⟨.char (by decide) (by decide) (.char (by decide) (by decide) .nil), by decide⟩) (.nil (w := []) (by decide)))) (.nil (w := []) (by decide)))⟩
    exact C94_v2_partial hb (vs := [{ name := b!"[[" }]) rfl
  · decide +kernel

end Verif
