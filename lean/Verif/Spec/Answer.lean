import Verif.Model.Answer
import Verif.Spec.Handlers

/-!
# What clients are told, and what the metrics of the handlers count
-/

namespace Verif

/-- The answer to a request. -/
inductive AnswersTo (a : Arrival) : Answer → Prop
  | accepted {r spans} (close : Bool) : a.req.Delivers r → a.req.TypeOk → BodyParses a.env a.fuel a.req.route r spans → (close = true → a.req.route = .v1) →
      AnswersTo a { status := 202, body := [], close }
  | unzippable : (∀ r, ¬ a.req.Delivers r) → AnswersTo a { status := 400, body := a.text ++ [10], close := false }
  | unsupported {r} (close : Bool) : a.req.Delivers r → ¬ a.req.TypeOk → AnswersTo a { status := 400, body := b!"only json spans are supported" ++ [10], close }
  | invalid {r} (close : Bool) : a.req.Delivers r → a.req.TypeOk → BodyFails a.env a.fuel a.req.route r → (close = true → a.req.route = .v1) →
      AnswersTo a { status := 400, body := b!"parsing spans from json: " ++ a.text ++ [10], close }

/-- The parser was called for the request, and returned. -/
def Arrival.GotParsed (a : Arrival) : Prop := ∃ r, a.req.Delivers r ∧ a.req.TypeOk ∧ ((∃ spans, BodyParses a.env a.fuel a.req.route r spans) ∨ BodyFails a.env a.fuel a.req.route r)

/-- The handler is done, but for the answer. -/
def Stage.isReady : Stage → Bool
  | .ready _ _ => true
  | .answered _ => true
  | _ => false

/-- The spans of the handler were counted. -/
def Stage.isMarked : Stage → Bool
  | .marked _ => true
  | .ready _ none => true
  | .answered a => a.status == 202
  | _ => false

/-- The number of spans of the requests whose handler passed the meter. -/
def Handlers.metered (h : Handlers) (log : List (Nat × Span)) : Nat :=
  ((List.range h.stages.length).map fun i => if (h.stages[i]?).any Stage.isMarked then (pushedBy i log).length else 0).sum

open Classical in
/-- The number of requests of a route whose body was parsed, well or badly, and whose handler is done but for the answer. -/
noncomputable def Handlers.clocked (h : Handlers) (arrivals : List Arrival) (route : Route) : Nat :=
  (List.range h.stages.length).countP fun i => (h.stages[i]?).any Stage.isReady ∧ ∃ a, arrivals[i]? = some a ∧ a.req.route = route ∧ a.GotParsed

end Verif
