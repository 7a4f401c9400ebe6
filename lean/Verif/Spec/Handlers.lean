import Verif.Model.Handlers

/-!
# What requests do
-/

namespace Verif

/-- The body, decompressed if the request says so. -/
def Request.Delivers (req : Request) (r : Reader) : Prop :=
  if req.contentEncoding = b!"gzip" then req.unzipped = some r else r = req.body

/-- The parser of a route gives these spans for a body. -/
def BodyParses (env : HandlerEnv) (fuel : Nat) (route : Route) (r : Reader) (spans : List Span) : Prop :=
  (route = .v1 ∧ ∃ pool, parseJsonV1 env.newCap fuel r env.buf env.pool = (.spans spans, pool)) ∨
  (route = .v2 ∧ parseJsonV2 env.newCap fuel r env.buf = .spans spans) ∨
  (route = .jaeger ∧ ∃ decoded, env.decodeJaeger r = some decoded ∧ spans = jaegerSpans decoded)

/-- The parser of a route fails. -/
def BodyFails (env : HandlerEnv) (fuel : Nat) (route : Route) (r : Reader) : Prop :=
  (route = .v1 ∧ ∃ pool, parseJsonV1 env.newCap fuel r env.buf env.pool = (.err, pool)) ∨
  (route = .v2 ∧ parseJsonV2 env.newCap fuel r env.buf = .err) ∨
  (route = .jaeger ∧ env.decodeJaeger r = none)

/-- Requests of version 1 must be of this type. -/
def Request.TypeOk (req : Request) : Prop := req.route = .v1 → b!"application/json" <:+: req.contentType

/-- The states that any schedule of requests leads to: the outcomes of the parsers for the requests in order of arrival, everything that was pushed, with the number of its
request, and what was taken from the channel. -/
inductive Http.Reachable (capacity : Nat) : List Parsed → List (Nat × Span) → List Span → Http → Prop
  | init : Reachable capacity [] [] [] {}
  | arrive {outcomes log taken h} (o : Parsed) : Reachable capacity outcomes log taken h →
      Reachable capacity (outcomes ++ [o]) log taken { h with conns := h.conns ++ [Conn.start o] }
  | step {outcomes log taken h h' e} : Reachable capacity outcomes log taken h → h.Step capacity h' e → Reachable capacity outcomes (log ++ e.toList) taken h'
  | take {outcomes log taken h s rest} : Reachable capacity outcomes log taken h → h.channel = s :: rest → Reachable capacity outcomes log (taken ++ [s]) { h with channel := rest }

/-- What request `i` pushed, in order. -/
def pushedBy (i : Nat) (log : List (Nat × Span)) : List Span := (log.filter fun e => e.1 = i).map (·.2)

/-- The state of a request fits to the outcome of its parser and what it pushed. -/
inductive AllOrNothing : Parsed → Conn → List Span → Prop
  /-- nothing is answered before all spans are pushed -/
  | pushing {pushed pending} : AllOrNothing (.spans (pushed ++ pending)) (.pushing pending) pushed
  | accepted {spans} : AllOrNothing (.spans spans) (.answered 202) spans
  | failing : AllOrNothing .err .failing []
  | rejected : AllOrNothing .err (.answered 400) []
  | panicked : AllOrNothing .panic .dead []
  | waiting : AllOrNothing .timeout .dead []

end Verif
