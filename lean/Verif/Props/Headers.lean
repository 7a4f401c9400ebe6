import Verif.Spec.Headers
import Verif.Props.Handlers

/-!
# C144: the headers of requests
-/

namespace Verif

open Spec

theorem foldLetter_id {c : UInt8} (h : ¬ (65 ≤ c ∧ c ≤ 90)) : foldLetter c = c := if_neg h

theorem fold_id {s : Str} (h : ∀ c ∈ s, ¬ (65 ≤ c ∧ c ≤ 90)) : s.map foldLetter = s := by
  induction s with
  | nil => rfl
  | cons c s ih => rw [List.map_cons, foldLetter_id (h c List.mem_cons_self), ih fun d hd => h d (List.mem_cons_of_mem _ hd)]

theorem usual_type {value : Str} (h : ∀ c ∈ value, ¬ (65 ≤ c ∧ c ≤ 90)) (ht : HasMediaType value b!"application/json") : b!"application/json" <:+: value := by
  obtain ⟨a, name, b, params, rfl, _, _, hn, _⟩ := ht
  have hname : name = b!"application/json" := by
    unfold SameName at hn
    rw [fold_id fun c hc => h c (by simp [hc])] at hn
    rw [hn]; decide
  exact ⟨a, b ++ params, by rw [hname]; simp⟩

theorem headers_plain (env : HandlerEnv) (fuel : Nat) (req : Request) (h1 : SaysPlain req.contentEncoding) (h2 : req.TypeOk) :
    handleRequest env fuel req = bodyOutcome env fuel req.route req.body := by
  have hg : req.contentEncoding ≠ b!"gzip" := by
    intro e
    rcases h1 with h | h
    · rw [h] at e; cases e
    · rw [e] at h
      exact absurd h (by unfold SameName; decide)
  unfold handleRequest parseRequest bodyOutcome
  rw [if_neg hg]
  cases hr : req.route with
  | v1 => dsimp only; rw [if_pos ((stringContains_iff _ _).mpr (h2 hr))]
  | v2 => rfl
  | jaeger => rfl

theorem headers_gzip (env : HandlerEnv) (fuel : Nat) (req : Request) (h1 : req.contentEncoding = b!"gzip") (h2 : req.TypeOk) :
    handleRequest env fuel req = match req.unzipped with
      | none => .err
      | some body => bodyOutcome env fuel req.route body := by
  unfold handleRequest parseRequest bodyOutcome
  rw [if_pos h1]
  cases req.unzipped with
  | none => rfl
  | some body =>
    dsimp only
    cases hr : req.route with
    | v1 => dsimp only; rw [if_pos ((stringContains_iff _ _).mpr (h2 hr))]
    | v2 => rfl
    | jaeger => rfl

/-- C144, what is true: with header values in lower case, and unless the name of JSON is part of those of another type, the headers are understood as they are meant. -/
theorem C144_usual_partial (env : HandlerEnv) (fuel : Nat) (req : Request) (h : UsualSpelling req) (hu : Unambiguous req) :
    HeadersUnderstood env fuel req (handleRequest env fuel req) where
  plain h1 h2 := headers_plain env fuel req h1 fun hr => usual_type h.type (h2 hr)
  gzip h1 h2 := headers_gzip env fuel req (h.coding h1) fun hr => usual_type h.type (h2 hr)
  wrong h1 := (C33_outcome env fuel req).2.mpr (.inr (.inl fun ht => h1 fun hr => hu (ht hr)))

/-- C144, for the routes that do not look at the type, in whatever spelling of it: only the spelling of gzip matters. -/
theorem C144_untyped_partial (env : HandlerEnv) (fuel : Nat) (req : Request) (hr : req.route ≠ .v1) (h : SaysGzip req.contentEncoding → req.contentEncoding = b!"gzip") :
    HeadersUnderstood env fuel req (handleRequest env fuel req) where
  plain h1 _ := headers_plain env fuel req h1 fun h => absurd h hr
  gzip h1 _ := headers_gzip env fuel req (h h1) fun h => absurd h hr
  wrong h1 := absurd (fun h => absurd h hr) h1

def headersEnv : HandlerEnv := { newCap := fun _ n => n, decodeJaeger := fun _ => none, buf := List.replicate 8 0, pool := [] }

/-- `[]`, compressed by gzip. -/
def emptyGzip : Str := [31, 139, 8, 0, 0, 0, 0, 0, 0, 255, 139, 142, 5, 0, 41, 187, 76, 13, 2, 0, 0, 0]

def dataReader (data : Str) : Reader := { data := data, script := [], failing := false, idle := false }

def codedRequest (coding : Str) : Request :=
  { route := .v2, contentType := b!"application/json", contentEncoding := coding, body := dataReader emptyGzip, unzipped := some (dataReader b!"[]") }

def typedRequest (type : Str) : Request :=
  { route := .v1, contentType := type, contentEncoding := [], body := dataReader b!"[]", unzipped := none }

/-- Is it accepted, and with which number of spans? -/
def acceptedCount : Parsed → Option Nat
  | .spans l => some l.length
  | _ => none

/-- A request for `[]` that is compressed, and that says so in the usual way, and one of version 1: both are accepted. -/
theorem C144_witness : UsualSpelling (codedRequest b!"gzip") ∧ Unambiguous (codedRequest b!"gzip") ∧ acceptedCount (handleRequest headersEnv 100 (codedRequest b!"gzip")) = some 0 ∧
    UsualSpelling (typedRequest b!"application/json; charset=utf-8") ∧ Unambiguous (typedRequest b!"application/json; charset=utf-8") ∧
    acceptedCount (handleRequest headersEnv 100 (typedRequest b!"application/json; charset=utf-8")) = some 0 := by
  refine ⟨⟨by decide, fun _ => rfl⟩, fun _ => ⟨[], b!"application/json", [], [], rfl, by simp [BlankHeader], by simp [BlankHeader], rfl, .inl rfl⟩, by decide +kernel,
    ⟨by decide, fun h => absurd h (by unfold SaysGzip SameName; decide)⟩,
    fun _ => ⟨[], b!"application/json", [], b!"; charset=utf-8", rfl, by simp [BlankHeader], by simp [BlankHeader], rfl, .inr ⟨_, rfl⟩⟩, by decide +kernel⟩

/-- C144 is false: a body that is announced as `GZIP` (or `x-gzip`) is not decompressed, and refused. -/
theorem C144_fails_coding : ∀ coding ∈ [b!"GZIP", b!"x-gzip"], SaysGzip coding ∧ acceptedCount (handleRequest headersEnv 100 (codedRequest coding)) = none ∧
    ¬ HeadersUnderstood headersEnv 100 (codedRequest coding) (handleRequest headersEnv 100 (codedRequest coding)) := by
  intro coding hc
  have h1 : SaysGzip coding := by
    rcases List.mem_cons.mp hc with rfl | hc
    · exact .inl (by unfold SameName; decide)
    · cases List.mem_singleton.mp hc
      exact .inr rfl
  have h2 : acceptedCount (handleRequest headersEnv 100 (codedRequest coding)) = none := by
    rcases List.mem_cons.mp hc with rfl | hc
    · decide +kernel
    · cases List.mem_singleton.mp hc
      decide +kernel
  refine ⟨h1, h2, fun h => ?_⟩
  have h3 := h.gzip h1 (fun h => by cases h)
  rw [h3] at h2
  exact absurd (show acceptedCount (bodyOutcome headersEnv 100 .v2 (dataReader b!"[]")) = none from h2) (by decide +kernel)

/-- C144 is false: version 1 refuses JSON that is announced as `Application/JSON`. -/
theorem C144_fails_case : HasMediaType b!"Application/JSON" b!"application/json" ∧ acceptedCount (handleRequest headersEnv 100 (typedRequest b!"Application/JSON")) = none ∧
    acceptedCount (bodyOutcome headersEnv 100 .v1 (typedRequest b!"Application/JSON").body) = some 0 := by
  refine ⟨⟨[], b!"Application/JSON", [], [], rfl, by simp [BlankHeader], by simp [BlankHeader], by unfold SameName; decide, .inl rfl⟩, by decide +kernel, by decide +kernel⟩

/-- C144 is false: version 1 takes a body for JSON that is announced as something else. -/
theorem C144_fails_type : ¬ HasMediaType b!"text/plain; was=application/json" b!"application/json" ∧
    acceptedCount (handleRequest headersEnv 100 (typedRequest b!"text/plain; was=application/json")) = some 0 := by
  refine ⟨?_, by decide +kernel⟩
  rintro ⟨a, name, b, params, h, ha, _, hn, _⟩
  have hlen : name.length = 16 := by simpa [SameName] using congrArg List.length hn
  cases a with
  | cons c a =>
    have : c = c!"t" := by
      have := congrArg List.head? h
      simpa using this.symm
    rcases ha c List.mem_cons_self with h' | h' <;> rw [this] at h' <;> exact absurd h' (by decide)
  | nil =>
    cases name with
    | nil => cases hlen
    | cons c name =>
      have : c = c!"t" := by
        have := congrArg List.head? h
        simpa using this.symm
      have hh := congrArg List.head? hn
      rw [this] at hh
      exact absurd hh (by simp only [List.map_cons, List.head?_cons]; decide)

end Verif
