import Verif.Model.Handlers

/-!
# The pools behind the handlers

codec/json.go:11-17 `bufferPool` and codec/json-v1.go:44-48 `poolSpansV1`, used by all handlers at the same time. A `sync.Pool` gives a value that was put back and that nobody else
has, or a new one; it may drop values at any time. Handlers run in parallel: between the two steps of one, any number of steps of others are possible.

Simplifications:
* A handler takes what it needs from the pools at once, and puts it back at once: a buffer and, in version 1, a slice. Requests of version 1 that are refused before the parser is
  called take them as well, and put them back unchanged.
* Requests whose parser does not return stay in `jobs`, and so does what they took.
* What a parser leaves in the buffer is arbitrary. Its length does not change: `grow` replaces the parser's buffer, not the one that is put back.
-/

namespace Verif

/-- handlers.go:16-83: the outcome of a request as `handleRequest`, and the slice that goes back to the pool. -/
def serveRequest (env : HandlerEnv) (fuel : Nat) (req : Request) : Parsed × List SpanV1 :=
  let parse (body : Reader) : Parsed × List SpanV1 :=
    match req.route with
    | .v1 => if stringContains b!"application/json" req.contentType then parseJsonV1 env.newCap fuel body env.buf env.pool else (.err, env.pool)
    | .v2 => (parseJsonV2 env.newCap fuel body env.buf, env.pool)
    | .jaeger => (parseJaeger env body, env.pool)
  if req.contentEncoding = b!"gzip" then
    match req.unzipped with
    | none => (.err, env.pool)
    | some body => parse body
  else parse req.body

/-- A request that is being handled, and what it has from the pools. -/
structure Job where
  req : Request
  buf : List UInt8
  slice : List SpanV1

/-- The pools, the requests that are being handled, and the outcomes so far. -/
structure Server where
  bufs : List (List UInt8) := []
  slices : List (List SpanV1) := []
  jobs : List Job := []
  done : List (Request × Parsed) := []

/-- `Get` of a pool: a new value, or one of those in the pool. -/
inductive PoolGet {α : Type} (new : α) : List α → α → List α → Prop
  | new (l : List α) : PoolGet new l new l
  | old (l₁ l₂ : List α) (x : α) : PoolGet new (l₁ ++ x :: l₂) x (l₁ ++ l₂)

/-- codec/json.go:15. -/
def newBuffer : List UInt8 := List.replicate 8192 0

/-- codec/json-v1.go:46. -/
def newSpans : List SpanV1 := List.replicate 64 {}

/-- What a handler finds when it is called. -/
def Job.env (newCap : Nat → Nat → Nat) (decodeJaeger : Reader → Option (List JaegerData)) (j : Job) : HandlerEnv := { newCap, decodeJaeger, buf := j.buf, pool := j.slice }

/-- The steps of the server. -/
inductive Server.Step (newCap : Nat → Nat → Nat) (decodeJaeger : Reader → Option (List JaegerData)) : Server → Server → Prop
  | startV1 (s : Server) (req : Request) {buf bufs slice slices} : req.route = .v1 → PoolGet newBuffer s.bufs buf bufs → PoolGet newSpans s.slices slice slices →
      Step newCap decodeJaeger s { s with bufs, slices, jobs := { req, buf, slice } :: s.jobs }
  | startV2 (s : Server) (req : Request) {buf bufs} : req.route = .v2 → PoolGet newBuffer s.bufs buf bufs →
      Step newCap decodeJaeger s { s with bufs, jobs := { req, buf, slice := [] } :: s.jobs }
  | startJaeger (s : Server) (req : Request) : req.route = .jaeger → Step newCap decodeJaeger s { s with jobs := { req, buf := [], slice := [] } :: s.jobs }
  /-- the parser returns (`fuel` is enough); `buf` is what it left in the buffer -/
  | finish (s : Server) {j₁ j₂ : List Job} {j : Job} (fuel : Nat) (buf : List UInt8) : s.jobs = j₁ ++ j :: j₂ → buf.length = j.buf.length →
      (serveRequest (j.env newCap decodeJaeger) fuel j.req).1 ≠ .timeout →
      Step newCap decodeJaeger s
        { bufs := if j.req.route = .jaeger then s.bufs else s.bufs ++ [buf],
          slices := if j.req.route = .v1 then s.slices ++ [(serveRequest (j.env newCap decodeJaeger) fuel j.req).2] else s.slices,
          jobs := j₁ ++ j₂, done := s.done ++ [(j.req, (serveRequest (j.env newCap decodeJaeger) fuel j.req).1)] }
  /-- the pools may forget values -/
  | drop (s : Server) {bufs slices} : List.Sublist bufs s.bufs → List.Sublist slices s.slices → Step newCap decodeJaeger s { s with bufs, slices }

end Verif
