import Verif.Model.Json

/-!
# handlers.go

Not modelled: routing (httprouter, and the code of the user passed to `routing`). Metrics, the text of error responses, and the header `Connection: close` are in
Model/Answer. `encoding/json` (see Model/GoJson) and `compress/gzip` are code of the standard library: any function.
-/

namespace Verif

/-- The three routes for spans. -/
inductive Route
  | v1 | v2 | jaeger
deriving DecidableEq

/-- A request for spans. -/
structure Request where
  route : Route
  /-- `Header.Get`: the value of a header that is not there is empty -/
  contentType : Str
  contentEncoding : Str
  body : Reader
  /-- what `gzip.NewReader` returns for the body; `none` is an error -/
  unzipped : Option Reader

/-- `strings.Contains(s, substr)`. -/
def stringContains (substr : Str) : Str → Bool
  | [] => substr.isPrefixOf []
  | c :: l => substr.isPrefixOf (c :: l) || stringContains substr l

/-- What the handlers get from their environment: the growth of slices, `json.Decoder.Decode` for jaeger requests, and the pools. -/
structure HandlerEnv where
  newCap : Nat → Nat → Nat
  decodeJaeger : Reader → Option (List JaegerData)
  buf : List UInt8
  pool : List SpanV1

/-- codec/jaeger.go:46-63 `ParseJaeger`. -/
def parseJaeger (env : HandlerEnv) (input : Reader) : Parsed :=
  match env.decodeJaeger input with
  | none => .err
  | some decoded => .spans (jaegerSpans decoded)

/-- handlers.go:16-64, the handlers up to the result of the parser. -/
def parseRequest (env : HandlerEnv) (fuel : Nat) (route : Route) (contentType : Str) (body : Reader) : Parsed :=
  match route with
  | .v1 => if stringContains b!"application/json" contentType then (parseJsonV1 env.newCap fuel body env.buf env.pool).1 else .err
  | .v2 => parseJsonV2 env.newCap fuel body env.buf
  | .jaeger => parseJaeger env body

/-- handlers.go:66-83 `handleGzipRequestBody`. -/
def handleRequest (env : HandlerEnv) (fuel : Nat) (req : Request) : Parsed :=
  if req.contentEncoding = b!"gzip" then
    match req.unzipped with
    | none => .err
    | some body => parseRequest env fuel req.route req.contentType body
  else parseRequest env fuel req.route req.contentType req.body

/-- A request being handled: the spans that are still to be pushed; or the error that is to be reported; or the status that was answered; or nothing more happens, since the
handler panicked (net/http then closes the connection) or waits for the body forever. -/
inductive Conn
  | pushing (pending : List Span)
  | failing
  | answered (code : Nat)
  | dead

/-- handlers.go:86-89: after parsing. -/
def Conn.start : Parsed → Conn
  | .spans l => .pushing l
  | .err => .failing
  | .panic => .dead
  | .timeout => .dead

/-- All requests, and the channel for their spans. -/
structure Http where
  conns : List Conn := []
  channel : List Span := []

/-- One step of a handler. `i` is the number of the request; the last argument tells what was pushed. `capacity` is that of the channel (256 in main.go). Parsing is one step,
since it touches nothing else but the pools; for these see C28. -/
inductive Http.Step (capacity : Nat) : Http → Http → Option (Nat × Span) → Prop
  /-- handlers.go:91-93 -/
  | push (h : Http) {i : Nat} {s : Span} {rest : List Span} : h.conns[i]? = some (.pushing (s :: rest)) → h.channel.length < capacity →
      Step capacity h { h with conns := h.conns.set i (.pushing rest), channel := h.channel ++ [s] } (some (i, s))
  /-- handlers.go:98, 35 (48, 61): `StatusAccepted` -/
  | accept (h : Http) {i : Nat} : h.conns[i]? = some (.pushing []) → Step capacity h { h with conns := h.conns.set i (.answered 202) } none
  /-- handlers.go:88, 33 (46, 59, 72): `StatusBadRequest` -/
  | reject (h : Http) {i : Nat} : h.conns[i]? = some .failing → Step capacity h { h with conns := h.conns.set i (.answered 400) } none

end Verif
