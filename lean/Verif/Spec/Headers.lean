import Verif.Spec.Handlers

/-!
# What the headers of a request say (RFC 9110, 5.6.6, 8.3 and 8.4)
-/

namespace Verif.Spec

/-- ASCII letters without their case. -/
def foldLetter (c : UInt8) : UInt8 := if 65 ≤ c ∧ c ≤ 90 then c + 32 else c

/-- Names of media types and of codings are compared without regard to case. -/
def SameName (a b : Str) : Prop := a.map foldLetter = b.map foldLetter

def BlankHeader (s : Str) : Prop := ∀ c ∈ s, c = 32 ∨ c = 9

/-- `Content-Type`: the name of a media type, and parameters. -/
def HasMediaType (value type : Str) : Prop :=
  ∃ a name b params, value = a ++ name ++ b ++ params ∧ BlankHeader a ∧ BlankHeader b ∧ SameName name type ∧ (params = [] ∨ ∃ l, params = c!";" :: l)

/-- `Content-Encoding` for gzip; the old name is to be treated alike (8.4.1.3). -/
def SaysGzip (value : Str) : Prop := SameName value b!"gzip" ∨ SameName value b!"x-gzip"

/-- `Content-Encoding` that is not there, or that says that the body is as it is. -/
def SaysPlain (value : Str) : Prop := value = [] ∨ SameName value b!"identity"

/-- What the parser of a route makes of a body. -/
def bodyOutcome (env : HandlerEnv) (fuel : Nat) (route : Route) (body : Reader) : Parsed :=
  match route with
  | .v1 => (parseJsonV1 env.newCap fuel body env.buf env.pool).1
  | .v2 => parseJsonV2 env.newCap fuel body env.buf
  | .jaeger => parseJaeger env body

/-- The type is right: version 1 of the API demands JSON; the other routes take the body for JSON anyway. -/
def RightType (req : Request) : Prop := req.route = .v1 → HasMediaType req.contentType b!"application/json"

/-- Headers are understood as they are meant. -/
structure HeadersUnderstood (env : HandlerEnv) (fuel : Nat) (req : Request) (out : Parsed) : Prop where
  plain : SaysPlain req.contentEncoding → RightType req → out = bodyOutcome env fuel req.route req.body
  gzip : SaysGzip req.contentEncoding → RightType req → out = match req.unzipped with
    | none => .err
    | some body => bodyOutcome env fuel req.route body
  wrong : ¬ RightType req → out = .err

/-- Header values in the usual spelling: lower case, and the usual name of gzip. -/
structure UsualSpelling (req : Request) : Prop where
  type : ∀ c ∈ req.contentType, ¬ (65 ≤ c ∧ c ≤ 90)
  coding : SaysGzip req.contentEncoding → req.contentEncoding = b!"gzip"

/-- Another media type has the name of JSON in it nowhere. -/
def Unambiguous (req : Request) : Prop := b!"application/json" <:+: req.contentType → HasMediaType req.contentType b!"application/json"

end Verif.Spec
