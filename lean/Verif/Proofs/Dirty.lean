import Verif.Proofs.Pool

/-!
# Decoding into memory that is not clean

What a decoder does with a document does not depend on the memory, and of the result only the binary annotations do.
-/

namespace Verif

section
variable {σ σ' : Type}

theorem Prog.Sim.weaken {R Q : σ → σ' → Prop} {p : Prog σ} {p' : Prog σ'} (h : p.Sim R p') (hrq : ∀ m m', R m m' → Q m m') : p.Sim Q p' := by
  induction h with
  | done h => exact .done (hrq _ _ h)
  | fail m m' => exact .fail _ _
  | timeout => exact .timeout
  | op o m m' _ ih => exact .op o _ _ ih

end

/-- Both memories, whatever they are. -/
abbrev AnyTwo {σ : Type} : σ → σ → Prop := fun _ _ => True

theorem string_any (m m' : Str) : (stringValueDecoder m).Sim AnyTwo (stringValueDecoder m') := readString_sim fun _ => .done trivial

theorem readLiteral_any {σ : Type} {m m' : σ} {k k' : Str → Prog σ} (h : ∀ t, (k t).Sim AnyTwo (k' t)) : (readLiteral m k).Sim AnyTwo (readLiteral m' k') := by
  unfold readLiteral
  refine nextType_sim fun t => ?_
  cases t with
  | string => exact .op _ _ _ h
  | number => exact .op _ _ _ h
  | boolean =>
    refine .op _ _ _ fun c => ?_
    split
    · exact .op _ _ _ h
    · exact .op _ _ _ h
  | null => exact .op _ _ _ h
  | _ => exact .fail _ _

theorem any_any (m m' : Str) : (anyValueDecoder m).Sim AnyTwo (anyValueDecoder m') := readLiteral_any fun _ => .done trivial

theorem field_any {σ τ : Type} {get : σ → τ} {set : τ → σ → σ} {d : ValueDecoder τ} (hd : ∀ v v', (d v).Sim AnyTwo (d v')) (m m' : σ) :
    (d.field get set m).Sim AnyTwo (d.field get set m') :=
  (hd _ _).andThen fun _ _ _ => .done trivial

theorem struct_any {σ : Type} {fields : List (Str × ValueDecoder σ)} (hf : ∀ name d, (name, d) ∈ fields → ∀ m m', (d m).Sim AnyTwo (d m')) (fuel : Nat) (m m' : σ) :
    (makeStructDecoder fuel fields m).Sim AnyTwo (makeStructDecoder fuel fields m') :=
  consume_sim (structLoop_sim (fun name d hd m m' _ => hf name d hd m m') _ _ trivial)

theorem endpoint_any (fuel : Nat) (m m' : Endpoint) : (endpointValueDecoder fuel m).Sim AnyTwo (endpointValueDecoder fuel m') := by
  refine struct_any (fun name d hd => ?_) fuel m m'
  simp only [List.mem_cons, List.not_mem_nil, or_false, Prod.mk.injEq] at hd
  obtain ⟨_, rfl⟩ := hd
  exact field_any string_any

theorem binaryAnnotation_any (fuel : Nat) (m m' : BinaryAnnotationV1) :
    (makeStructDecoder fuel (binaryAnnotationV1Fields fuel) m).Sim AnyTwo (makeStructDecoder fuel (binaryAnnotationV1Fields fuel) m') := by
  refine struct_any (fun name d hd => ?_) fuel m m'
  simp only [binaryAnnotationV1Fields, List.mem_cons, List.not_mem_nil, or_false, Prod.mk.injEq] at hd
  rcases hd with ⟨_, rfl⟩ | ⟨_, rfl⟩ | ⟨_, rfl⟩
  · exact field_any string_any
  · exact field_any any_any
  · exact field_any (endpoint_any fuel)

theorem sliceLoop_any {α : Type} {newCap : Nat → Nat → Nat} {zero : α} {d : ValueDecoder α} (hd : ∀ m m', (d m).Sim AnyTwo (d m')) (fuel idx : Nat) (s s' : GoSlice α) :
    (sliceLoop newCap zero d fuel idx s).Sim AnyTwo (sliceLoop newCap zero d fuel idx s') := by
  induction fuel generalizing idx s s' with
  | zero => exact .timeout
  | succ fuel ih =>
    refine nextType_sim fun t => ?_
    split
    · exact consume_sim (.done trivial)
    · exact (hd _ _).andThen fun _ _ _ => ih _ _ _

/-- The same span, but for its binary annotations. -/
def SameButBinary (v v' : SpanV1) : Prop :=
  v.id = v'.id ∧ v.traceId = v'.traceId ∧ v.parentId = v'.parentId ∧ v.timestamp = v'.timestamp ∧ v.duration = v'.duration ∧ v.name = v'.name ∧ v.annotations = v'.annotations

theorem spanV1_any (newCap : Nat → Nat → Nat) (fuel : Nat) (a a' : SpanV1) :
    (spanV1ValueDecoder newCap fuel a).Sim SameButBinary (spanV1ValueDecoder newCap fuel a') := by
  have hreset : SameButBinary a.reset a'.reset := ⟨rfl, rfl, rfl, rfl, rfl, rfl, rfl⟩
  unfold spanV1ValueDecoder makeStructDecoder
  refine consume_sim (structLoop_sim (fun name d hd m m' hm => ?_) _ _ hreset)
  obtain ⟨h1, h2, h3, h4, h5, h6, h7⟩ := hm
  simp only [spanV1Fields, List.mem_cons, List.not_mem_nil, or_false, Prod.mk.injEq] at hd
  rcases hd with ⟨_, rfl⟩ | ⟨_, rfl⟩ | ⟨_, rfl⟩ | ⟨_, rfl⟩ | ⟨_, rfl⟩ | ⟨_, rfl⟩ | ⟨_, rfl⟩ | ⟨_, rfl⟩
  · exact field_sim h1 fun v => ⟨rfl, h2, h3, h4, h5, h6, h7⟩
  · exact field_sim h2 fun v => ⟨h1, rfl, h3, h4, h5, h6, h7⟩
  · exact field_sim h3 fun v => ⟨h1, h2, rfl, h4, h5, h6, h7⟩
  · exact field_sim h4 fun v => ⟨h1, h2, h3, rfl, h5, h6, h7⟩
  · exact field_sim h5 fun v => ⟨h1, h2, h3, h4, rfl, h6, h7⟩
  · exact field_sim h6 fun v => ⟨h1, h2, h3, h4, h5, rfl, h7⟩
  · unfold ValueDecoder.field makeSliceDecoder
    refine Prog.Sim.andThen (R := AnyTwo) (consume_sim (sliceLoop_any (binaryAnnotation_any fuel) _ _ _ _)) fun b b' _ => ?_
    exact .done ⟨h1, h2, h3, h4, h5, h6, h7⟩
  · exact field_sim h7 fun v => ⟨h1, h2, h3, h4, h5, h6, rfl⟩

/-- A span without what comes from binary annotations: its tags and its service. -/
def Span.bare (s : Span) : Span := { s with tags := none, service := [] }

theorem binary_bare (l : List BinaryAnnotationV1) {s s' : Span} (h : s.bare = s'.bare) : (l.foldl addBinaryAnnotation s).bare = s'.bare := by
  induction l generalizing s with
  | nil => exact h
  | cons a l ih =>
    refine ih ?_
    rw [← h]
    unfold addBinaryAnnotation
    simp only
    split <;> rfl

theorem fillInTimestamp_bare (s : Span) : (fillInTimestamp s).bare = fillInTimestamp s.bare := by
  unfold fillInTimestamp
  simp only [show s.bare.timings = s.timings from rfl]
  by_cases h1 : s.timings.SR > 0 ∧ s.timings.SS > 0
  · simp only [h1, and_self, if_true]
    by_cases h2 : s.timings.CS > 0 ∧ s.timings.CR > 0
    · simp only [h2, and_self, if_true]
      split <;> rfl
    · simp only [show s.bare.timings = s.timings from rfl, if_neg h2]
      split <;> rfl
  · simp only [if_neg h1, show s.bare.timings = s.timings from rfl]
    by_cases h2 : s.timings.CS > 0 ∧ s.timings.CR > 0
    · simp only [h2, and_self, if_true]
      split <;> rfl
    · simp only [if_neg h2, show s.bare.duration = s.duration from rfl]
      split <;> rfl

theorem SameButBinary.toSpan {v v' : SpanV1} (h : SameButBinary v v') : v.toSpan.bare = v'.toSpan.bare := by
  obtain ⟨h1, h2, h3, h4, h5, h6, h7⟩ := h
  unfold SpanV1.toSpan
  simp only [h1, h2, h3, h4, h5, h6, h7]
  rw [fillInTimestamp_bare, fillInTimestamp_bare]
  congr 1
  have hb := fun s : Span => binary_bare v.binaryAnnotations.elems (s := s) rfl
  have hb' := fun s : Span => binary_bare v'.binaryAnnotations.elems (s := s) rfl
  generalize v.binaryAnnotations.elems.foldl addBinaryAnnotation = f at hb
  generalize v'.binaryAnnotations.elems.foldl addBinaryAnnotation = f' at hb'
  generalize ({ v'.annotations.foldl addAnnotation (newSpan v'.name v'.traceId v'.id v'.parentId) with tags := some ∅ } : Span) = s
  have e := (hb s).trans (hb' s).symm
  simp only [Span.bare, Span.mk.injEq] at e
  obtain ⟨e1, e2, e3, e4, -, e5, e6, -, e7⟩ := e
  split <;> split <;> simp [Span.bare, Span.addTag, e1, e2, e3, e4, e5, e6, e7]

theorem sliceLoop_bare (newCap : Nat → Nat → Nat) (F fuel idx : Nat) {s s' : GoSlice SpanV1} (hl : s.len = idx) (hl' : s'.len = idx)
    (hc : idx ≤ s.cells.length) (hc' : idx ≤ s'.cells.length) (hs : s.elems.map (fun v => v.toSpan.bare) = s'.elems.map (fun v => v.toSpan.bare)) :
    (sliceLoop newCap {} (spanV1ValueDecoder newCap F) fuel idx s).Sim (fun s s' => s.elems.map (fun v => v.toSpan.bare) = s'.elems.map (fun v => v.toSpan.bare))
      (sliceLoop newCap {} (spanV1ValueDecoder newCap F) fuel idx s') := by
  induction fuel generalizing idx s s' with
  | zero => exact .timeout
  | succ fuel ih =>
    refine nextType_sim fun t => ?_
    split
    · exact consume_sim (.done hs)
    · refine (spanV1_any newCap F _ _).andThen fun v v' hv => ?_
      obtain ⟨⟨a1, a2, -⟩, a4⟩ := fresh_push (newCap := newCap) (zero := ({} : SpanV1)) (good := fun _ => True) trivial ⟨hl, hc, fun _ _ => trivial⟩ v
      obtain ⟨⟨b1, b2, -⟩, b4⟩ := fresh_push (newCap := newCap) (zero := ({} : SpanV1)) (good := fun _ => True) trivial ⟨hl', hc', fun _ _ => trivial⟩ v'
      refine ih (idx + 1) a1 b1 a2 b2 ?_
      rw [a4, b4, List.map_append, List.map_append, hs, List.map_singleton, List.map_singleton, hv.toSpan]

end Verif
