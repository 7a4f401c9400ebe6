import Verif.Model.Server
import Verif.Spec.Handlers
import Verif.Proofs.Stale
import Verif.Proofs.Dirty
import Verif.Props.Repeat

/-!
# Requests that are handled at the same time: C91; and the content of pooled buffers (C21)
-/

namespace Verif

open Spec

/-! ## C21: what else is in the buffer -/

/-- What is in a pooled buffer when it is taken does not matter, whatever the body is and however it is delivered: not even if tokens do not fit into the buffer. -/
theorem C21_stale (newCap : Nat → Nat → Nat) (fuel : Nat) (r : Reader) {buf buf' : List UInt8} (hb : buf.length = buf'.length) (pool : List SpanV1) :
    parseJsonV1 newCap fuel r buf pool = parseJsonV1 newCap fuel r buf' pool ∧ parseJsonV2 newCap fuel r buf = parseJsonV2 newCap fuel r buf' := by
  have ha := newWithReader_alike r hb
  have h1 := Prog.run_alike (decoderSliceSpanV1_safe newCap fuel { cells := pool, len := 0 } false) fuel ha (by simp)
  have h2 := Prog.run_alike (decoderSliceSpanV2_safe newCap fuel { cells := [], len := 0 } false) fuel ha (by simp)
  unfold parseJsonV1 parseJsonV2
  constructor
  · revert h1
    cases (decoderSliceSpanV1 newCap fuel { cells := pool, len := 0 }).run fuel (Parser.newWithReader r buf) <;>
      cases (decoderSliceSpanV1 newCap fuel { cells := pool, len := 0 }).run fuel (Parser.newWithReader r buf') <;> intro h <;> first | exact h.elim | rfl | (obtain ⟨rfl, -⟩ := h; rfl)
  · revert h2
    cases (decoderSliceSpanV2 newCap fuel { cells := [], len := 0 }).run fuel (Parser.newWithReader r buf) <;>
      cases (decoderSliceSpanV2 newCap fuel { cells := [], len := 0 }).run fuel (Parser.newWithReader r buf') <;> intro h <;> first | exact h.elim | rfl | (obtain ⟨rfl, -⟩ := h; rfl)

/-! ## Memory that is not clean -/

/-- The same outcome, but for tags and services. -/
def Parsed.SameButTags : Parsed → Parsed → Prop
  | .spans l, .spans l' => l.map Span.bare = l'.map Span.bare
  | .err, .err => True
  | .panic, .panic => True
  | .timeout, .timeout => True
  | _, _ => False

theorem Parsed.SameButTags.refl (o : Parsed) : o.SameButTags o := by
  cases o <;> trivial

/-- Whatever earlier requests left in the pooled memory: a body is accepted or refused all the same, with the same number of spans, and these have the same ids, names and
times. Only tags and services may differ. -/
theorem C28_bounded (newCap : Nat → Nat → Nat) (fuel : Nat) (r : Reader) (buf : List UInt8) (pool pool' : List SpanV1) :
    (parseJsonV1 newCap fuel r buf pool).1.SameButTags (parseJsonV1 newCap fuel r buf pool').1 := by
  have hs : (decoderSliceSpanV1 newCap fuel { cells := pool, len := 0 }).Sim (fun s s' => s.elems.map (fun v => v.toSpan.bare) = s'.elems.map (fun v => v.toSpan.bare))
      (decoderSliceSpanV1 newCap fuel { cells := pool', len := 0 }) := by
    unfold decoderSliceSpanV1 makeSliceDecoder
    exact consume_sim (sliceLoop_bare newCap fuel fuel 0 rfl rfl (Nat.zero_le _) (Nat.zero_le _) rfl)
  have := hs.run fuel (Parser.newWithReader r buf)
  unfold parseJsonV1
  revert this
  cases (decoderSliceSpanV1 newCap fuel { cells := pool, len := 0 }).run fuel (Parser.newWithReader r buf) <;>
    cases (decoderSliceSpanV1 newCap fuel { cells := pool', len := 0 }).run fuel (Parser.newWithReader r buf) <;>
    intro this <;> first | exact False.elim this | trivial | skip
  obtain ⟨e, _⟩ := this
  simp only [Parsed.SameButTags, List.map_map]
  exact e

/-! ## C91: requests at the same time -/

/-- The states that any schedule leads to. -/
inductive Server.Reachable (newCap : Nat → Nat → Nat) (decodeJaeger : Reader → Option (List JaegerData)) : Server → Prop
  | init : Reachable newCap decodeJaeger {}
  | step {s s' : Server} : Reachable newCap decodeJaeger s → s.Step newCap decodeJaeger s' → Reachable newCap decodeJaeger s'

/-- All requests so far. -/
def Server.requests (s : Server) : List Request := s.jobs.map (·.req) ++ s.done.map (·.1)

/-- What a request leads to on a server that was just started and has no other. -/
def Alone (newCap : Nat → Nat → Nat) (decodeJaeger : Reader → Option (List JaegerData)) (req : Request) (out : Parsed) : Prop :=
  Returns (fun fuel => handleRequest { newCap, decodeJaeger, buf := newBuffer, pool := newSpans } fuel req) out

/-- No object of the body, in version 1, has a second member `binaryAnnotations`. -/
def Request.Plain (req : Request) : Prop := req.route = .v1 → ∀ r, req.Delivers r → ¬ Repeats b!"binaryAnnotations" r.data

theorem serveRequest_handle (env : HandlerEnv) (fuel : Nat) (req : Request) : (serveRequest env fuel req).1 = handleRequest env fuel req := by
  unfold serveRequest handleRequest parseRequest
  cases req.unzipped <;> cases req.route <;> simp only <;> repeat' split
  all_goals rfl

theorem parse_mono (newCap : Nat → Nat → Nat) {fuel fuel' : Nat} (hf : fuel ≤ fuel') (r : Reader) (buf : List UInt8) (pool : List SpanV1) :
    ((parseJsonV1 newCap fuel r buf pool).1 ≠ .timeout → parseJsonV1 newCap fuel' r buf pool = parseJsonV1 newCap fuel r buf pool) ∧
    (parseJsonV2 newCap fuel r buf ≠ .timeout → parseJsonV2 newCap fuel' r buf = parseJsonV2 newCap fuel r buf) := by
  have h1 := (decoderSliceSpanV1_le newCap hf { cells := pool, len := 0 }).run hf (Parser.newWithReader r buf)
  have h2 := (decoderSliceSpanV2_le newCap hf { cells := [], len := 0 }).run hf (Parser.newWithReader r buf)
  constructor
  · intro h
    unfold parseJsonV1 at h ⊢
    rw [h1 (fun e => by rw [e] at h; exact h rfl)]
  · intro h
    unfold parseJsonV2 at h ⊢
    rw [h2 (fun e => by rw [e] at h; exact h rfl)]

theorem handleRequest_returns {env : HandlerEnv} {fuel : Nat} {req : Request} (h : handleRequest env fuel req ≠ .timeout) :
    Returns (fun fuel => handleRequest env fuel req) (handleRequest env fuel req) := by
  refine ⟨fuel, fun fuel' hf => ?_⟩
  have hp : ∀ body, parseRequest env fuel req.route req.contentType body ≠ .timeout →
      parseRequest env fuel' req.route req.contentType body = parseRequest env fuel req.route req.contentType body := by
    intro body hb
    obtain ⟨m1, m2⟩ := parse_mono env.newCap hf body env.buf env.pool
    unfold parseRequest at hb ⊢
    cases hr : req.route with
    | v1 =>
      rw [hr] at hb
      simp only at hb ⊢
      split
      · rename_i hc
        rw [if_pos hc] at hb
        rw [m1 hb]
      · rfl
    | v2 => rw [hr] at hb; exact m2 hb
    | jaeger => rfl
  unfold handleRequest at h ⊢
  simp only
  split
  · rename_i hg
    rw [if_pos hg] at h
    cases hu : req.unzipped with
    | none => rfl
    | some body => rw [hu] at h; exact hp body h
  · rename_i hg
    rw [if_neg hg] at h
    exact hp _ h

/-- The outcome of a request depends on the pools at most as that of the parser does. -/
theorem handleRequest_env {R : Parsed → Parsed → Prop} (hR : ∀ o, R o o) (newCap : Nat → Nat → Nat) (decodeJaeger : Reader → Option (List JaegerData)) (fuel : Nat) (req : Request)
    {buf buf' : List UInt8} {pool pool' : List SpanV1} (hb : req.route ≠ .jaeger → buf.length = buf'.length)
    (h : req.route = .v1 → ∀ r, R (parseJsonV1 newCap fuel r buf' pool).1 (parseJsonV1 newCap fuel r buf' pool').1) :
    R (handleRequest { newCap, decodeJaeger, buf, pool } fuel req) (handleRequest { newCap, decodeJaeger, buf := buf', pool := pool' } fuel req) := by
  have hp : ∀ body, R (parseRequest { newCap, decodeJaeger, buf, pool } fuel req.route req.contentType body)
      (parseRequest { newCap, decodeJaeger, buf := buf', pool := pool' } fuel req.route req.contentType body) := by
    intro body
    unfold parseRequest
    cases hr : req.route with
    | v1 =>
      simp only
      split
      · rw [(C21_stale newCap fuel body (hb (by simp [hr])) pool).1]
        exact h hr body
      · exact hR _
    | v2 =>
      simp only
      rw [(C21_stale newCap fuel body (hb (by simp [hr])) pool).2]
      exact hR _
    | jaeger => exact hR _
  unfold handleRequest
  split
  · split
    · exact hR _
    · exact hp _
  · exact hp _

theorem serveRequest_clean {newCap : Nat → Nat → Nat} {decodeJaeger : Reader → Option (List JaegerData)} {fuel : Nat} {req : Request} {buf : List UInt8} {pool : List SpanV1}
    (h5 : 5 ≤ buf.length) (hp : CleanPool pool) (hreq : req.Plain) (hroute : req.route = .v1) :
    CleanPool (serveRequest { newCap, decodeJaeger, buf, pool } fuel req).2 := by
  have key : ∀ body, req.Delivers body → CleanPool (parseJsonV1 newCap fuel body buf pool).2 := fun body hd => C28_keeps_partial newCap fuel h5 hp (hreq hroute body hd)
  unfold Request.Delivers at key
  unfold serveRequest
  simp only [hroute]
  split
  · rename_i hg
    simp only [if_pos hg] at key
    split
    · exact hp
    · split
      · exact key _ ‹_›
      · exact hp
  · rename_i hg
    simp only [if_neg hg] at key
    split
    · exact key _ rfl
    · exact hp

/-- What is in the pools, and what the requests have from them. -/
structure Server.Inv (newCap : Nat → Nat → Nat) (decodeJaeger : Reader → Option (List JaegerData)) (s : Server) : Prop where
  bufs : ∀ b ∈ s.bufs, b.length = 8192
  jobBufs : ∀ j ∈ s.jobs, j.req.route ≠ .jaeger → j.buf.length = 8192
  done : ∀ e ∈ s.done, ∃ buf pool, (e.1.route ≠ .jaeger → buf.length = 8192) ∧ ((∀ req ∈ s.requests, req.Plain) → e.1.route = .v1 → CleanPool pool) ∧
    Returns (fun fuel => handleRequest { newCap, decodeJaeger, buf, pool } fuel e.1) e.2
  slices : (∀ req ∈ s.requests, req.Plain) → ∀ l ∈ s.slices, CleanPool l
  jobSlices : (∀ req ∈ s.requests, req.Plain) → ∀ j ∈ s.jobs, j.req.route = .v1 → CleanPool j.slice

theorem poolGet_all {α : Type} {P : α → Prop} {new x : α} {l l' : List α} (h : PoolGet new l x l') (hnew : P new) (hl : ∀ y ∈ l, P y) : P x ∧ ∀ y ∈ l', P y := by
  cases h with
  | new => exact ⟨hnew, hl⟩
  | old l₁ l₂ x =>
    refine ⟨hl x (by simp), fun y hy => hl y ?_⟩
    simp only [List.mem_append, List.mem_cons] at hy ⊢
    rcases hy with h | h
    · exact .inl h
    · exact .inr (.inr h)

theorem newBuffer_length : newBuffer.length = 8192 := List.length_replicate ..

theorem newSpans_clean : CleanPool newSpans := fun s hs => (List.eq_of_mem_replicate hs) ▸ clean_default

theorem server_inv {newCap : Nat → Nat → Nat} {decodeJaeger : Reader → Option (List JaegerData)} {s : Server} (h : Server.Reachable newCap decodeJaeger s) :
    s.Inv newCap decodeJaeger := by
  induction h with
  | init => exact ⟨by simp, by simp, by simp, by simp, by simp⟩
  | @step s s' _ hs ih =>
    -- adding a request
    have add : ∀ (j : Job) (bufs : List (List UInt8)) (slices : List (List SpanV1)), (∀ b ∈ bufs, b.length = 8192) → (j.req.route ≠ .jaeger → j.buf.length = 8192) →
        ((∀ req ∈ s.requests, req.Plain) → ∀ l ∈ slices, CleanPool l) → ((∀ req ∈ s.requests, req.Plain) → j.req.route = .v1 → CleanPool j.slice) →
        Server.Inv newCap decodeJaeger { s with bufs, slices, jobs := j :: s.jobs } := by
      intro j bufs slices h1 h2 h3 h4
      have sub : (∀ req ∈ Server.requests { s with bufs, slices, jobs := j :: s.jobs }, req.Plain) → ∀ req ∈ s.requests, req.Plain := by
        intro hp req hreq
        refine hp req ?_
        simp only [Server.requests, List.map_cons, List.cons_append, List.mem_cons]
        exact .inr hreq
      refine ⟨h1, ?_, ?_, fun hp => h3 (sub hp), ?_⟩
      · intro j' hj'
        rcases List.mem_cons.mp hj' with rfl | hj'
        · exact h2
        · exact ih.jobBufs j' hj'
      · intro e he
        obtain ⟨buf, pool, a, b, c⟩ := ih.done e he
        exact ⟨buf, pool, a, fun hp => b (sub hp), c⟩
      · intro hp j' hj'
        rcases List.mem_cons.mp hj' with rfl | hj'
        · exact h4 (sub hp)
        · exact ih.jobSlices (sub hp) j' hj'
    cases hs with
    | startV1 req hroute hb hl =>
      obtain ⟨b1, b2⟩ := poolGet_all hb (P := fun b => b.length = 8192) newBuffer_length ih.bufs
      exact add _ _ _ b2 (fun _ => b1) (fun hp => (poolGet_all hl newSpans_clean (ih.slices hp)).2) (fun hp _ => (poolGet_all hl newSpans_clean (ih.slices hp)).1)
    | startV2 req hroute hb =>
      obtain ⟨b1, b2⟩ := poolGet_all hb (P := fun b => b.length = 8192) newBuffer_length ih.bufs
      exact add _ _ _ b2 (fun _ => b1) ih.slices (fun _ hh => absurd (hroute.symm.trans hh) (by simp))
    | startJaeger req hroute =>
      exact add _ _ _ ih.bufs (fun hh => absurd hroute hh) ih.slices (fun _ hh => absurd (hroute.symm.trans hh) (by simp))
    | @finish j₁ j₂ j fuel buf hj hlen hto =>
      have hmem : j ∈ s.jobs := by rw [hj]; simp
      have hjobs : ∀ j' ∈ j₁ ++ j₂, j' ∈ s.jobs := by
        intro j' hj'
        rw [hj]
        simp only [List.mem_append, List.mem_cons] at hj' ⊢
        rcases hj' with h | h
        · exact .inl h
        · exact .inr (.inr h)
      generalize hs' : Server.mk (if j.req.route = .jaeger then s.bufs else s.bufs ++ [buf])
          (if j.req.route = .v1 then s.slices ++ [(serveRequest (j.env newCap decodeJaeger) fuel j.req).2] else s.slices) (j₁ ++ j₂)
          (s.done ++ [(j.req, (serveRequest (j.env newCap decodeJaeger) fuel j.req).1)]) = s'
      have sub : (∀ req ∈ s'.requests, req.Plain) → ∀ req ∈ s.requests, req.Plain := by
        intro hp req hreq
        refine hp req ?_
        rw [← hs']
        simp only [Server.requests, hj, List.map_append, List.map_cons, List.mem_append, List.mem_cons, List.map_nil, List.not_mem_nil, or_false] at hreq ⊢
        rcases hreq with (h | h | h) | h
        · exact .inl (.inl h)
        · exact .inr (.inr h)
        · exact .inl (.inr h)
        · exact .inr (.inl h)
      have plain : (∀ req ∈ s'.requests, req.Plain) → j.req.Plain := by
        intro hp
        refine sub hp _ ?_
        unfold Server.requests
        exact List.mem_append_left _ (List.mem_map_of_mem hmem)
      rw [serveRequest_handle] at hto
      refine ⟨?_, ?_, ?_, ?_, ?_⟩
      · rw [← hs']
        simp only
        split
        · exact ih.bufs
        · rename_i hr
          intro b hb
          rcases List.mem_append.mp hb with hb | hb
          · exact ih.bufs b hb
          · rw [List.mem_singleton.mp hb, hlen]
            exact ih.jobBufs j hmem hr
      · rw [← hs']
        exact fun j' hj' => ih.jobBufs j' (hjobs j' hj')
      · intro e he
        rw [← hs'] at he
        rcases List.mem_append.mp he with he | he
        · obtain ⟨b, pool, x, y, z⟩ := ih.done e he
          exact ⟨b, pool, x, fun hp => y (sub hp), z⟩
        · rw [List.mem_singleton.mp he]
          refine ⟨j.buf, j.slice, ih.jobBufs j hmem, fun hp => ih.jobSlices (sub hp) j hmem, ?_⟩
          simp only [serveRequest_handle]
          exact handleRequest_returns hto
      · intro hp
        have a := ih.slices (sub hp)
        have b := plain hp
        rw [← hs']
        simp only
        split
        · rename_i hr
          intro l hl
          rcases List.mem_append.mp hl with hl | hl
          · exact a l hl
          · rw [List.mem_singleton.mp hl]
            exact serveRequest_clean (by rw [ih.jobBufs j hmem (by simp [hr])]; decide) (ih.jobSlices (sub hp) j hmem hr) b hr
        · exact a
      · intro hp
        have a := ih.jobSlices (sub hp)
        rw [← hs']
        exact fun j' hj' => a j' (hjobs j' hj')
    | drop hb hl =>
      exact ⟨fun b hb' => ih.bufs b (hb.subset hb'), ih.jobBufs, ih.done, fun hp l hl' => ih.slices hp l (hl.subset hl'), ih.jobSlices⟩

/-- However requests follow each other and overlap: if none of them repeats `binaryAnnotations`, every request is answered with what it would be answered with alone; and
every request that is still being handled returns with an outcome exactly if it would alone. (Missing: servers that got a request with repeated `binaryAnnotations`, see `C91_fails`.) -/
theorem C91_alone_partial {newCap : Nat → Nat → Nat} {decodeJaeger : Reader → Option (List JaegerData)} {s : Server} (h : Server.Reachable newCap decodeJaeger s)
    (hplain : ∀ req ∈ s.requests, req.Plain) :
    (∀ req out, (req, out) ∈ s.done → Alone newCap decodeJaeger req out) ∧
    ∀ j ∈ s.jobs, ∀ out, Returns (fun fuel => handleRequest (j.env newCap decodeJaeger) fuel j.req) out ↔ Alone newCap decodeJaeger j.req out := by
  have inv := server_inv h
  have same : ∀ (req : Request) (buf : List UInt8) (pool : List SpanV1), (req.route ≠ .jaeger → buf.length = 8192) → (req.route = .v1 → CleanPool pool) → ∀ fuel,
      handleRequest { newCap, decodeJaeger, buf, pool } fuel req = handleRequest { newCap, decodeJaeger, buf := newBuffer, pool := newSpans } fuel req := by
    intro req buf pool hb hp fuel
    exact handleRequest_env (R := (· = ·)) (fun _ => rfl) newCap decodeJaeger fuel req (fun hr => (hb hr).trans newBuffer_length.symm)
      fun hr r => C28_clean_partial newCap fuel r newBuffer (hp hr) newSpans_clean
  refine ⟨fun req out he => ?_, fun j hj out => ?_⟩
  · obtain ⟨buf, pool, hb, hp, hret⟩ := inv.done _ he
    unfold Alone
    simp only [same req buf pool hb (hp hplain)] at hret
    exact hret
  · unfold Alone Job.env
    simp only [same j.req j.buf j.slice (inv.jobBufs j hj) (inv.jobSlices hplain j hj)]

/-- Whatever the other requests are: a request of version 2 or of jaeger is answered with what it would be answered with alone; and one of version 1 is as well, but for tags
and services. -/
theorem C91_any {newCap : Nat → Nat → Nat} {decodeJaeger : Reader → Option (List JaegerData)} {s : Server} (h : Server.Reachable newCap decodeJaeger s) {req : Request} {out : Parsed}
    (he : (req, out) ∈ s.done) :
    (req.route ≠ .v1 → Alone newCap decodeJaeger req out) ∧ ∃ out', Alone newCap decodeJaeger req out' ∧ out.SameButTags out' := by
  obtain ⟨buf, pool, hb, -, hret⟩ := (server_inv h).done _ he
  have hlen : req.route ≠ .jaeger → buf.length = newBuffer.length := fun hr => (hb hr).trans newBuffer_length.symm
  constructor
  · intro hv
    unfold Alone
    have := fun fuel => handleRequest_env (R := (· = ·)) (fun _ => rfl) newCap decodeJaeger fuel req (pool := pool) (pool' := newSpans) hlen (fun hr => absurd hr hv)
    simp only [this] at hret
    exact hret
  · have hsim := fun fuel => handleRequest_env (R := Parsed.SameButTags) Parsed.SameButTags.refl newCap decodeJaeger fuel req (pool := pool) (pool' := newSpans) hlen
      (fun _ r => C28_bounded newCap fuel r newBuffer pool newSpans)
    obtain ⟨enough, hret⟩ := hret
    simp only at hret
    by_cases ht : handleRequest { newCap, decodeJaeger, buf := newBuffer, pool := newSpans } enough req = .timeout
    · have hout : out = .timeout := by
        have := hsim enough
        rw [hret enough (Nat.le_refl _), ht] at this
        cases out <;> first | rfl | exact this.elim
      subst hout
      refine ⟨.timeout, ⟨enough, fun fuel hf => ?_⟩, trivial⟩
      have := hsim fuel
      rw [hret fuel hf] at this
      simp only
      cases hh : handleRequest { newCap, decodeJaeger, buf := newBuffer, pool := newSpans } fuel req <;> rw [hh] at this <;> first | rfl | exact this.elim
    · refine ⟨_, handleRequest_returns ht, ?_⟩
      have := hsim enough
      rw [hret enough (Nat.le_refl _)] at this
      exact this

/-! ### Executions -/

/-- A request of version 1 with this body. -/
def plainV1 (data : Str) : Request :=
  { route := .v1, contentType := b!"application/json", contentEncoding := [], body := { data, script := [], failing := false, idle := false }, unzipped := none }

theorem serve_plainV1 {newCap : Nat → Nat → Nat} {decodeJaeger : Reader → Option (List JaegerData)} {data : Str} {buf : List UInt8} {pool pool' : List SpanV1} {spans : List Span}
    (h : ParsesV1 newCap data pool spans pool') (hfit : TokensFit buf.length data) (h0 : 0 < buf.length) :
    ∃ fuel, serveRequest { newCap, decodeJaeger, buf, pool } fuel (plainV1 data) = (.spans spans, pool') := by
  obtain ⟨fuel, hf⟩ := h { data, script := [], failing := false, idle := false } buf rfl hfit h0
  refine ⟨fuel, ?_⟩
  have := hf fuel (Nat.le_refl _)
  simp only at this
  have hc : stringContains b!"application/json" b!"application/json" = true := by decide
  simp only [serveRequest, plainV1, hc, if_true]
  rw [if_neg (by decide)]
  exact this

/-- One request after the other, with the same memory. -/
theorem server_two {newCap : Nat → Nat → Nat} {decodeJaeger : Reader → Option (List JaegerData)} {req1 req2 : Request} {f1 f2 : Nat} {out1 out2 : Parsed} {pool1 pool2 : List SpanV1}
    (r1 : req1.route = .v1) (r2 : req2.route = .v1) (e1 : serveRequest { newCap, decodeJaeger, buf := newBuffer, pool := newSpans } f1 req1 = (out1, pool1))
    (e2 : serveRequest { newCap, decodeJaeger, buf := newBuffer, pool := pool1 } f2 req2 = (out2, pool2)) (n1 : out1 ≠ .timeout) (n2 : out2 ≠ .timeout) :
    ∃ s, Server.Reachable newCap decodeJaeger s ∧ s.done = [(req1, out1), (req2, out2)] ∧ s.jobs = [] := by
  have a1 : Server.Reachable newCap decodeJaeger { jobs := [{ req := req1, buf := newBuffer, slice := newSpans }] } := .step .init (.startV1 _ req1 r1 (.new _) (.new _))
  have a2 := Server.Reachable.step a1 (.finish _ (j₁ := []) (j₂ := []) f1 newBuffer rfl rfl (by simp only [Job.env, e1]; exact n1))
  simp only [Job.env, e1, r1, reduceCtorEq, if_false, if_true, List.nil_append] at a2
  have a3 := Server.Reachable.step a2 (.startV1 _ req2 r2 (.old [] [] newBuffer) (.old [] [] pool1))
  simp only [List.append_nil] at a3
  have a4 := Server.Reachable.step a3 (.finish _ (j₁ := []) (j₂ := []) f2 newBuffer rfl rfl (by simp only [Job.env, e2]; exact n2))
  simp only [Job.env, e2] at a4
  exact ⟨_, a4, rfl, rfl⟩

/-- The property as stated does not hold: two requests, one after the other. The second says nothing about tags, and its span has one; alone, it has none. -/
theorem C91_fails : ∃ (newCap : Nat → Nat → Nat) (decodeJaeger : Reader → Option (List JaegerData)) (s : Server) (req : Request) (x y : Span),
    Server.Reachable newCap decodeJaeger s ∧ (req, .spans [x]) ∈ s.done ∧ x.tag b!"secret" = some b!"x" ∧
    Alone newCap decodeJaeger req (.spans [y]) ∧ y.tag b!"secret" = none := by
  obtain ⟨pool1, pool2, pool3, s1, s2, s3, p1, p2, t2, p3, t3⟩ := C28_leaks
  have hb : newBuffer.length = 8192 := newBuffer_length
  have fit1 : TokensFit 8192 b!"[{\"binaryAnnotations\":[{},{\"key\":\"secret\",\"value\":\"x\"}],\"binaryAnnotations\":[{}]}]" := by decide +kernel
  have fit2 : TokensFit 8192 b!"[{\"binaryAnnotations\":[{},{}]}]" := by decide +kernel
  obtain ⟨f1, e1⟩ := serve_plainV1 (decodeJaeger := fun _ => none) p1 (hb ▸ fit1) (by rw [hb]; decide)
  obtain ⟨f2, e2⟩ := serve_plainV1 (decodeJaeger := fun _ => none) p2 (hb ▸ fit2) (by rw [hb]; decide)
  obtain ⟨f3, e3⟩ := serve_plainV1 (decodeJaeger := fun _ => none) p3 (hb ▸ fit2) (by rw [hb]; decide)
  obtain ⟨s, hs, hd, -⟩ := server_two rfl rfl e1 e3 (by simp) (by simp)
  refine ⟨fun _ n => n, fun _ => none, s, plainV1 b!"[{\"binaryAnnotations\":[{},{}]}]", s3, s2, hs, ?_, t3, ?_, t2⟩
  · rw [hd]
    exact List.mem_cons_of_mem _ (List.mem_cons_self ..)
  · have := handleRequest_returns (env := { newCap := fun _ n => n, decodeJaeger := fun _ => none, buf := newBuffer, pool := newSpans }) (fuel := f2)
      (req := plainV1 b!"[{\"binaryAnnotations\":[{},{}]}]")
    rw [← serveRequest_handle, show newSpans = List.replicate 64 {} from rfl, e2] at this
    exact this (by simp)

theorem plainV1_plain {data : Str} (h : data.length < 39) : (plainV1 data).Plain := by
  intro _ r hd hr
  have e : r = { data, script := [], failing := false, idle := false } := by
    unfold Request.Delivers at hd
    rwa [if_neg (by simp [plainV1])] at hd
  subst e
  have := repeats_length hr
  simp at this
  omega

/-- Two requests at the same time, and a third that gets the memory of the first, with a tag in it, while the second is still being handled. -/
theorem C91_witness : ∃ (s : Server) (x y : Span), Server.Reachable (fun _ n => n) (fun _ => none) s ∧ (∀ req ∈ s.requests, req.Plain) ∧
    s.jobs.map (·.req) = [plainV1 b!"[{\"id\":\""] ∧
    s.done = [(plainV1 b!"[{\"binaryAnnotations\":[{\"key\":\"k\"}]}]", .spans [x]), (plainV1 b!"[{\"binaryAnnotations\":[{}]}]", .spans [y])] ∧
    x.tag b!"k" = some [] ∧ y.tag b!"k" = none := by
  have hb : newBuffer.length = 8192 := newBuffer_length
  let v1 : SpanV1 := { binaryAnnotations := { cells := [{ key := b!"k" }], len := 1 } }
  let v2 : SpanV1 := { binaryAnnotations := { cells := [{}], len := 1 } }
  have p1 : ParsesV1 (fun _ n => n) b!"[{\"binaryAnnotations\":[{\"key\":\"k\"}]}]" newSpans [v1.toSpan] (v1 :: List.replicate 63 {}) :=
    parsesV1_of_stream (fuel := 20) (m := { cells := v1 :: List.replicate 63 {}, len := 1 }) (b := false) (s := []) rfl
  have p2 : ParsesV1 (fun _ n => n) b!"[{\"binaryAnnotations\":[{}]}]" (v1 :: List.replicate 63 {}) [v2.toSpan] (v2 :: List.replicate 63 {}) :=
    parsesV1_of_stream (fuel := 20) (m := { cells := v2 :: List.replicate 63 {}, len := 1 }) (b := false) (s := []) rfl
  have fit1 : TokensFit 8192 b!"[{\"binaryAnnotations\":[{\"key\":\"k\"}]}]" := by decide +kernel
  have fit2 : TokensFit 8192 b!"[{\"binaryAnnotations\":[{}]}]" := by decide +kernel
  obtain ⟨f1, e1⟩ := serve_plainV1 (decodeJaeger := fun _ => none) p1 (hb ▸ fit1) (by rw [hb]; decide)
  obtain ⟨f2, e2⟩ := serve_plainV1 (decodeJaeger := fun _ => none) p2 (hb ▸ fit2) (by rw [hb]; decide)
  have a1 : Server.Reachable (fun _ n => n) (fun _ => none) { jobs := [{ req := plainV1 b!"[{\"binaryAnnotations\":[{\"key\":\"k\"}]}]", buf := newBuffer, slice := newSpans }] } :=
    .step .init (.startV1 _ _ rfl (.new _) (.new _))
  have a2 := Server.Reachable.step a1 (.startV1 _ (plainV1 b!"[{\"id\":\"") rfl (.new _) (.new _))
  have a3 := Server.Reachable.step a2 (.finish _ (j₁ := [_]) (j₂ := []) f1 newBuffer rfl rfl (by simp only [Job.env, e1]; simp))
  simp only [Job.env, e1, show (plainV1 b!"[{\"binaryAnnotations\":[{\"key\":\"k\"}]}]").route = .v1 from rfl, reduceCtorEq, if_false, if_true, List.nil_append, List.append_nil] at a3
  have a4 := Server.Reachable.step a3 (.startV1 _ (plainV1 b!"[{\"binaryAnnotations\":[{}]}]") rfl (.old [] [] newBuffer) (.old [] [] _))
  simp only [List.append_nil] at a4
  have a5 := Server.Reachable.step a4 (.finish _ (j₁ := []) (j₂ := [_]) f2 newBuffer rfl rfl (by simp only [Job.env, e2]; simp))
  simp only [Job.env, e2] at a5
  refine ⟨_, v1.toSpan, v2.toSpan, a5, ?_, rfl, rfl, by decide +kernel, by decide +kernel⟩
  intro req hreq
  simp only [Server.requests, List.map_cons, List.map_nil, List.nil_append, List.cons_append, List.mem_cons, List.not_mem_nil, or_false] at hreq
  rcases hreq with rfl | rfl | rfl
  all_goals exact plainV1_plain (by decide)

end Verif
