import Verif.Model.Handlers

/-!
# handlers.go: the answers, and the metrics

The handlers of Model/Handlers in smaller steps, with everything that a client or the registry of metrics can see of them.

Assumptions about libraries: `http.Error` writes the status and the text with a line feed; `errors.WithMessage` puts its message and `": "` in front of the text; a timer of go-metrics counts a call when
it returned, a meter adds what it is given. Texts of errors of the parsers and of gzip are arbitrary.

Not modelled: routing, other headers than `Connection`, what timers and meters compute from times.
-/

namespace Verif

/-- What a client gets. -/
structure Answer where
  status : Nat
  body : Str := []
  /-- the header `Connection: close` -/
  close : Bool := false
deriving DecidableEq

/-- How far a handler got. -/
inductive Stage
  /-- handlers.go:91-93; `count` is the number of all its spans -/
  | pushing (route : Route) (count : Nat) (pending : List Span)
  /-- handlers.go:98: the meter was marked -/
  | marked (route : Route)
  /-- handlers.go:88: the parser failed -/
  | failed (route : Route) (text : Str)
  /-- after `Time`, or without it, with the value of `err` -/
  | ready (route : Route) (err : Option Str)
  /-- handlers.go:72: the body could not be unzipped -/
  | unzippable (text : Str)
  | answered (a : Answer)
  /-- the parser panicked, or waits forever -/
  | dead

/-- A request, what the handler finds, and the text of the error, should there be one. -/
structure Arrival where
  env : HandlerEnv
  fuel : Nat
  req : Request
  text : Str

/-- handlers.go:86-89, after parsing. -/
def Stage.parsed (route : Route) (text : Str) : Parsed → Stage
  | .spans l => .pushing route l.length l
  | .err => .failed route (b!"parsing spans from json: " ++ text)
  | .panic => .dead
  | .timeout => .dead

/-- handlers.go:16-64, up to the result of the parser. -/
def Stage.route (a : Arrival) (body : Reader) : Stage :=
  match a.req.route with
  | .v1 =>
    if stringContains b!"application/json" a.req.contentType then .parsed .v1 a.text (parseJsonV1 a.env.newCap a.fuel body a.env.buf a.env.pool).1
    else .ready .v1 (some b!"only json spans are supported")
  | .v2 => .parsed .v2 a.text (parseJsonV2 a.env.newCap a.fuel body a.env.buf)
  | .jaeger => .parsed .jaeger a.text (parseJaeger a.env body)

/-- handlers.go:66-83. -/
def Stage.start (a : Arrival) : Stage :=
  if a.req.contentEncoding = b!"gzip" then
    match a.req.unzipped with
    | none => .unzippable a.text
    | some body => Stage.route a body
  else Stage.route a a.req.body

/-- `http.Error(writer, text, http.StatusBadRequest)`. -/
def httpError (text : Str) : Answer := { status := 400, body := text ++ b!"\n" }

/-- handlers.go:32-36 (45-49, 58-62). -/
def answerFor : Option Str → Answer
  | some text => httpError text
  | none => { status := 202 }

/-- All requests, the channel, and the metrics. -/
structure Handlers where
  stages : List Stage := []
  channel : List Span := []
  /-- `spans.parsed[type:json]` -/
  parsed : Nat := 0
  /-- `spans.receive[type:json-v1]`, `…json-v2`, `…jaeger` -/
  timed : Route → Nat := fun _ => 0

/-- One step of a handler; the last argument tells what was pushed. -/
inductive Handlers.Step (capacity : Nat) : Handlers → Handlers → Option (Nat × Span) → Prop
  | push (h : Handlers) {i : Nat} {route : Route} {n : Nat} {s : Span} {rest : List Span} : h.stages[i]? = some (.pushing route n (s :: rest)) → h.channel.length < capacity →
      Step capacity h { h with stages := h.stages.set i (.pushing route n rest), channel := h.channel ++ [s] } (some (i, s))
  /-- handlers.go:95-96 -/
  | mark (h : Handlers) {i : Nat} {route : Route} {n : Nat} : h.stages[i]? = some (.pushing route n []) →
      Step capacity h { h with stages := h.stages.set i (.marked route), parsed := h.parsed + n } none
  /-- handlers.go:20, 41, 54: `Time` returns -/
  | timeOk (h : Handlers) {i : Nat} {route : Route} : h.stages[i]? = some (.marked route) →
      Step capacity h { h with stages := h.stages.set i (.ready route none), timed := fun r => if r = route then h.timed r + 1 else h.timed r } none
  | timeErr (h : Handlers) {i : Nat} {route : Route} {text : Str} : h.stages[i]? = some (.failed route text) →
      Step capacity h { h with stages := h.stages.set i (.ready route (some text)), timed := fun r => if r = route then h.timed r + 1 else h.timed r } none
  /-- handlers.go:27-36: in version 1, one answer in a hundred closes the connection -/
  | answer (h : Handlers) {i : Nat} {route : Route} {err : Option Str} (close : Bool) : h.stages[i]? = some (.ready route err) → (close = true → route = .v1) →
      Step capacity h { h with stages := h.stages.set i (.answered { answerFor err with close := close }) } none
  | unzippable (h : Handlers) {i : Nat} {text : Str} : h.stages[i]? = some (.unzippable text) →
      Step capacity h { h with stages := h.stages.set i (.answered (httpError text)) } none

/-- The states that any schedule of requests leads to: the requests in order of arrival, everything that was pushed, with the number of its request, and what was taken from the
channel. -/
inductive Handlers.Reachable (capacity : Nat) : List Arrival → List (Nat × Span) → List Span → Handlers → Prop
  | init : Reachable capacity [] [] [] {}
  | arrive {arrivals log taken h} (a : Arrival) : Reachable capacity arrivals log taken h →
      Reachable capacity (arrivals ++ [a]) log taken { h with stages := h.stages ++ [Stage.start a] }
  | step {arrivals log taken h h' e} : Reachable capacity arrivals log taken h → h.Step capacity h' e → Reachable capacity arrivals (log ++ e.toList) taken h'
  | take {arrivals log taken h s rest} : Reachable capacity arrivals log taken h → h.channel = s :: rest → Reachable capacity arrivals log (taken ++ [s]) { h with channel := rest }

end Verif
