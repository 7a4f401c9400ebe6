import Verif.Model.Json
import Verif.Proofs.Decoder

/-!
# More fuel does not change the outcome

A decoder with more fuel does the same, except that where the one with less fuel gives up, it may go on.
-/

namespace Verif

variable {σ τ : Type}

/-- The second program does what the first does, as long as the first does not run out of fuel. -/
inductive Prog.Le : Prog σ → Prog σ → Prop
  | timeout (q : Prog σ) : Prog.Le .timeout q
  | done (m : σ) : Prog.Le (.done m) (.done m)
  | fail (m : σ) : Prog.Le (.fail m) (.fail m)
  | op (o : Op) (m : σ) {k k' : o.Res → Prog σ} (h : ∀ a, Prog.Le (k a) (k' a)) : Prog.Le (.op o m k) (.op o m k')

theorem Prog.Le.refl (p : Prog σ) : p.Le p := by
  induction p with
  | done m => exact .done m
  | fail m => exact .fail m
  | timeout => exact .timeout _
  | op o m k ih => exact .op o m ih

theorem Prog.Le.trans {p q r : Prog σ} (h : p.Le q) (h' : q.Le r) : p.Le r := by
  induction h generalizing r with
  | timeout _ => exact .timeout _
  | done m => exact h'
  | fail m => exact h'
  | op o m _ ih =>
    cases h' with
    | op _ _ h2 => exact .op o m fun a => ih a (h2 a)

theorem Prog.Le.andThen {p q : Prog τ} (h : p.Le q) (f : τ → σ) {k k' : τ → Prog σ} (hk : ∀ m, (k m).Le (k' m)) :
    (p.andThen f k).Le (q.andThen f k') := by
  induction h with
  | timeout _ => exact .timeout _
  | done m => exact hk m
  | fail m => exact .fail _
  | op o m _ ih => exact .op o (f m) ih

theorem Prog.Le.stream {p q : Prog σ} (h : p.Le q) (r : Bool) (s : List UInt8) (ht : p.stream r s ≠ .timeout) :
    q.stream r s = p.stream r s := by
  induction h generalizing r s with
  | timeout _ => exact absurd rfl ht
  | done m => rfl
  | fail m => rfl
  | op o m hk ih =>
    unfold Prog.stream at ht ⊢
    split
    · rfl
    · rename_i hn
      rw [if_neg hn] at ht
      split at ht
      · exact ih _ _ _ ht
      · rfl
      · rfl

theorem nextType_le {m : σ} {k k' : JType → Prog σ} (h : ∀ t, (k t).Le (k' t)) : (nextType m k).Le (nextType m k') := by
  refine .op _ _ fun _ => .op _ _ fun c => ?_
  by_cases hc : symbolTable c = .error
  · simp only [if_pos hc]; exact .fail m
  · simp only [if_neg hc]; exact h _

theorem consume_le (t : Punct) {m : σ} {k k' : Prog σ} (h : k.Le k') : (consume t m k).Le (consume t m k') :=
  .op _ _ fun _ => .op _ _ fun _ => h

theorem readString_le {m : σ} {k k' : Str → Prog σ} (h : ∀ t, (k t).Le (k' t)) : (readString m k).Le (readString m k') :=
  .op _ _ fun _ => .op _ _ h

theorem skip_le (fuel : Nat) :
    (∀ t, (skip fuel t).Le (skip (fuel + 1) t)) ∧ (skipArrayLoop fuel).Le (skipArrayLoop (fuel + 1)) ∧
    (skipObjectLoop fuel).Le (skipObjectLoop (fuel + 1)) := by
  induction fuel with
  | zero =>
    refine ⟨fun t => ?_, ?_, ?_⟩
    · unfold skip; exact .timeout _
    · unfold skipArrayLoop; exact .timeout _
    · unfold skipObjectLoop; exact .timeout _
  | succ fuel ih =>
    obtain ⟨h1, h2, h3⟩ := ih
    refine ⟨fun t => ?_, ?_, ?_⟩
    · unfold skip
      split
      · exact .refl _
      · exact .refl _
      · exact .refl _
      · exact .refl _
      · exact .op _ _ fun _ => h3
      · exact .op _ _ fun _ => h2
      · exact .refl _
    · unfold skipArrayLoop
      refine nextType_le fun t => ?_
      split
      · exact .refl _
      · exact (h1 t).andThen _ fun _ => h2
    · unfold skipObjectLoop
      refine nextType_le fun t => ?_
      split
      · exact .refl _
      · exact .op _ _ fun _ => (nextType_le fun t => h1 t).andThen _ fun _ => h3

theorem le_of_succ {f : Nat → Prog σ} (h : ∀ n, (f n).Le (f (n + 1))) {n n' : Nat} (hn : n ≤ n') : (f n).Le (f n') := by
  induction hn with
  | refl => exact .refl _
  | step _ ih => exact ih.trans (h _)

theorem skipValue_le {fuel fuel' : Nat} (h : fuel ≤ fuel') : (skipValue fuel).Le (skipValue fuel') :=
  nextType_le fun t => le_of_succ (f := fun n => skip n t) (fun n => (skip_le n).1 t) h

/-- The same for decoders. -/
def ValueDecoder.Le (d d' : ValueDecoder σ) : Prop := ∀ m, (d m).Le (d' m)

theorem ValueDecoder.Le.refl (d : ValueDecoder σ) : d.Le d := fun _ => .refl _

theorem ValueDecoder.Le.field {get : σ → τ} {set : τ → σ → σ} {d d' : ValueDecoder τ} (h : d.Le d') : (d.field get set).Le (d'.field get set) :=
  fun m => (h (get m)).andThen _ fun _ => .refl _

theorem idValueDecoder_le {fuel fuel' : Nat} (h : fuel ≤ fuel') : (idValueDecoder fuel).Le (idValueDecoder fuel') := by
  intro m
  refine nextType_le fun t => ?_
  split
  · exact (skipValue_le h).andThen _ fun _ => .refl _
  · exact .refl _

theorem mapLoop_le {kd vd : ValueDecoder Str} {m : Option TagMap} (fuel : Nat) (result : Option TagMap) :
    (mapLoop kd vd m fuel result).Le (mapLoop kd vd m (fuel + 1) result) := by
  induction fuel generalizing result with
  | zero => exact .timeout _
  | succ fuel ih =>
    unfold mapLoop
    refine nextType_le fun t => ?_
    split
    · exact .refl _
    · exact (Prog.Le.refl _).andThen _ fun _ => (Prog.Le.refl _).andThen _ fun _ => ih _

theorem makeMapDecoder_le {kd vd : ValueDecoder Str} {fuel fuel' : Nat} (h : fuel ≤ fuel') :
    (makeMapDecoder fuel kd vd).Le (makeMapDecoder fuel' kd vd) := fun m =>
  consume_le _ (le_of_succ (f := fun n => mapLoop kd vd m n none) (fun n => mapLoop_le n none) h)

theorem sliceLoop_le {α : Type} {newCap : Nat → Nat → Nat} {zero : α} {d d' : ValueDecoder α} (hd : d.Le d') {fuel fuel' : Nat}
    (h : fuel ≤ fuel') (idx : Nat) (s : GoSlice α) : (sliceLoop newCap zero d fuel idx s).Le (sliceLoop newCap zero d' fuel' idx s) := by
  induction fuel generalizing fuel' idx s with
  | zero => exact .timeout _
  | succ fuel ih =>
    obtain ⟨f, rfl⟩ : ∃ f, fuel' = f + 1 := ⟨fuel' - 1, by omega⟩
    unfold sliceLoop
    refine nextType_le fun t => ?_
    split
    · exact .refl _
    · exact (hd _).andThen _ fun _ => ih (by omega) _ _

theorem makeSliceDecoder_le {α : Type} {newCap : Nat → Nat → Nat} {zero : α} {d d' : ValueDecoder α} (hd : d.Le d') {fuel fuel' : Nat}
    (h : fuel ≤ fuel') : (makeSliceDecoder newCap fuel zero d).Le (makeSliceDecoder newCap fuel' zero d') := fun s =>
  consume_le _ (sliceLoop_le hd h 0 s)

theorem arrayLoop_le {α : Type} {sf sf' : Nat} (hs : sf ≤ sf') {zero : α} {d d' : ValueDecoder α} (hd : d.Le d') {fuel fuel' : Nat}
    (h : fuel ≤ fuel') (idx : Nat) (a : List α) : (arrayLoop sf zero d fuel idx a).Le (arrayLoop sf' zero d' fuel' idx a) := by
  induction fuel generalizing fuel' idx a with
  | zero => exact .timeout _
  | succ fuel ih =>
    obtain ⟨f, rfl⟩ : ∃ f, fuel' = f + 1 := ⟨fuel' - 1, by omega⟩
    unfold arrayLoop
    refine nextType_le fun t => ?_
    split
    · exact .refl _
    · split
      · exact (hd _).andThen _ fun _ => ih (by omega) _ _
      · exact (skipValue_le hs).andThen _ fun _ => ih (by omega) _ _

theorem makeArrayDecoder_le {α : Type} {zero : α} {d d' : ValueDecoder α} (hd : d.Le d') {fuel fuel' : Nat}
    (h : fuel ≤ fuel') : (makeArrayDecoder fuel zero d).Le (makeArrayDecoder fuel' zero d') := fun s =>
  consume_le _ (arrayLoop_le h hd h 0 s)

/-- The same fields, with decoders that have more fuel. -/
inductive FieldsLe : List (Str × ValueDecoder σ) → List (Str × ValueDecoder σ) → Prop
  | nil : FieldsLe [] []
  | cons {k : Str} {d d' : ValueDecoder σ} {l l' : List (Str × ValueDecoder σ)} : d.Le d' → FieldsLe l l' → FieldsLe ((k, d) :: l) ((k, d') :: l')

theorem FieldsLe.lookup {l l' : List (Str × ValueDecoder σ)} (h : FieldsLe l l') (k : Str) :
    (l.lookup k = none ∧ l'.lookup k = none) ∨ ∃ d d', l.lookup k = some d ∧ l'.lookup k = some d' ∧ d.Le d' := by
  induction h with
  | nil => exact .inl ⟨rfl, rfl⟩
  | cons hd _ ih =>
    rename_i k' d d' l l' _
    rw [List.lookup_cons, List.lookup_cons]
    cases k == k' with
    | true => exact .inr ⟨_, _, rfl, rfl, hd⟩
    | false => exact ih

theorem structLoop_le {sf sf' : Nat} (hs : sf ≤ sf') {l l' : List (Str × ValueDecoder σ)} (hl : FieldsLe l l') {fuel fuel' : Nat}
    (h : fuel ≤ fuel') (m : σ) : (structLoop sf l fuel m).Le (structLoop sf' l' fuel' m) := by
  induction fuel generalizing fuel' m with
  | zero => exact .timeout _
  | succ fuel ih =>
    obtain ⟨f, rfl⟩ : ∃ f, fuel' = f + 1 := ⟨fuel' - 1, by omega⟩
    unfold structLoop
    refine nextType_le fun t => ?_
    split
    · exact .refl _
    · refine readString_le fun key => ?_
      rcases hl.lookup key with ⟨h1, h2⟩ | ⟨d, d', h1, h2, h3⟩
      · rw [h1, h2]
        exact (skipValue_le hs).andThen _ fun _ => ih (by omega) _
      · rw [h1, h2]
        exact (h3 m).andThen _ fun _ => ih (by omega) _

theorem makeStructDecoder_le {l l' : List (Str × ValueDecoder σ)} {fuel fuel' : Nat} (hl : FieldsLe l l')
    (h : fuel ≤ fuel') : (makeStructDecoder fuel l).Le (makeStructDecoder fuel' l') := fun m =>
  consume_le _ (structLoop_le h hl h m)

/-! ## The decoders of the formats -/

theorem endpointValueDecoder_le {fuel fuel' : Nat} (h : fuel ≤ fuel') : (endpointValueDecoder fuel).Le (endpointValueDecoder fuel') :=
  makeStructDecoder_le (.cons (.refl _) .nil) h

theorem decoderSliceSpanV2_le (newCap : Nat → Nat → Nat) {fuel fuel' : Nat} (h : fuel ≤ fuel') :
    (decoderSliceSpanV2 newCap fuel).Le (decoderSliceSpanV2 newCap fuel') := by
  refine makeSliceDecoder_le (fun _ => makeStructDecoder_le ?_ h _) h
  exact .cons (idValueDecoder_le h).field (.cons (idValueDecoder_le h).field (.cons (idValueDecoder_le h).field
    (.cons (.refl _) (.cons (.refl _) (.cons (.refl _) (.cons (makeMapDecoder_le h).field (.cons (.refl _)
    (.cons (endpointValueDecoder_le h).field .nil))))))))

theorem decoderSliceSpanV1_le (newCap : Nat → Nat → Nat) {fuel fuel' : Nat} (h : fuel ≤ fuel') :
    (decoderSliceSpanV1 newCap fuel).Le (decoderSliceSpanV1 newCap fuel') := by
  refine makeSliceDecoder_le (fun _ => makeStructDecoder_le ?_ h _) h
  exact .cons (idValueDecoder_le h).field (.cons (idValueDecoder_le h).field (.cons (idValueDecoder_le h).field
    (.cons (.refl _) (.cons (.refl _) (.cons (.refl _)
    (.cons (makeSliceDecoder_le (makeStructDecoder_le (.cons (.refl _) (.cons (.refl _) (.cons (endpointValueDecoder_le h).field .nil))) h) h).field
    (.cons (makeArrayDecoder_le (makeStructDecoder_le (.cons (.refl _) (.cons (.refl _) (.cons (endpointValueDecoder_le h).field .nil))) h) h).field
    .nil)))))))

/-- Nothing but the fields' decoders. -/
theorem endpointValueDecoder_safe (fuel : Nat) : (endpointValueDecoder fuel).Safe := by
  refine makeStructDecoder_safe (fun f hf => ?_) fuel
  simp only [List.mem_cons, List.not_mem_nil, or_false] at hf
  subst hf
  exact stringValueDecoder_safe.field

theorem decoderSliceSpanV2_safe (newCap : Nat → Nat → Nat) (fuel : Nat) : (decoderSliceSpanV2 newCap fuel).Safe := by
  refine makeSliceDecoder_safe (fun m r => makeStructDecoder_safe (fun f hf => ?_) fuel _ r) fuel
  simp only [spanV2Fields, List.mem_cons, List.not_mem_nil, or_false] at hf
  rcases hf with rfl | rfl | rfl | rfl | rfl | rfl | rfl | rfl | rfl
  · exact (idValueDecoder_safe fuel).field
  · exact (idValueDecoder_safe fuel).field
  · exact (idValueDecoder_safe fuel).field
  · exact uint64ValueDecoder_safe.field
  · exact uint64ValueDecoder_safe.field
  · exact stringValueDecoder_safe.field
  · exact (makeMapDecoder_safe stringValueDecoder_safe stringValueDecoder_safe fuel).field
  · exact stringValueDecoder_safe.field
  · exact (endpointValueDecoder_safe fuel).field

theorem binaryAnnotation_safe (fuel : Nat) : (makeStructDecoder fuel (binaryAnnotationV1Fields fuel)).Safe := by
  refine makeStructDecoder_safe (fun f hf => ?_) fuel
  simp only [binaryAnnotationV1Fields, List.mem_cons, List.not_mem_nil, or_false] at hf
  rcases hf with rfl | rfl | rfl
  · exact stringValueDecoder_safe.field
  · exact anyValueDecoder_safe.field
  · exact (endpointValueDecoder_safe fuel).field

theorem annotation_safe (fuel : Nat) : (makeStructDecoder fuel (annotationV1Fields fuel)).Safe := by
  refine makeStructDecoder_safe (fun f hf => ?_) fuel
  simp only [annotationV1Fields, List.mem_cons, List.not_mem_nil, or_false] at hf
  rcases hf with rfl | rfl | rfl
  · exact uint64ValueDecoder_safe.field
  · exact stringValueDecoder_safe.field
  · exact (endpointValueDecoder_safe fuel).field

theorem decoderSliceSpanV1_safe (newCap : Nat → Nat → Nat) (fuel : Nat) : (decoderSliceSpanV1 newCap fuel).Safe := by
  refine makeSliceDecoder_safe (fun m r => makeStructDecoder_safe (fun f hf => ?_) fuel _ r) fuel
  simp only [spanV1Fields, List.mem_cons, List.not_mem_nil, or_false] at hf
  rcases hf with rfl | rfl | rfl | rfl | rfl | rfl | rfl | rfl
  · exact (idValueDecoder_safe fuel).field
  · exact (idValueDecoder_safe fuel).field
  · exact (idValueDecoder_safe fuel).field
  · exact uint64ValueDecoder_safe.field
  · exact uint64ValueDecoder_safe.field
  · exact stringValueDecoder_safe.field
  · exact (makeSliceDecoder_safe (binaryAnnotation_safe fuel) fuel).field
  · exact (makeArrayDecoder_safe (annotation_safe fuel) fuel).field

theorem endpointValueDecoder_ends {fuel n : Nat} (h : 2 * n < fuel) : (endpointValueDecoder fuel).Ends n := by
  refine makeStructDecoder_ends (fun f hf => ?_) h
  simp only [List.mem_cons, List.not_mem_nil, or_false] at hf
  subst hf
  dsimp only
  exact stringValueDecoder_ends.field

theorem decoderSliceSpanV2_ends (newCap : Nat → Nat → Nat) {fuel n : Nat} (h : 2 * n < fuel) : (decoderSliceSpanV2 newCap fuel).Ends n := by
  refine makeSliceDecoder_ends (fun m => makeStructDecoder_ends (fun f hf => ?_) h _) (by omega)
  simp only [spanV2Fields, List.mem_cons, List.not_mem_nil, or_false] at hf
  rcases hf with rfl | rfl | rfl | rfl | rfl | rfl | rfl | rfl | rfl <;> dsimp only
  · exact (idValueDecoder_ends h).field
  · exact (idValueDecoder_ends h).field
  · exact (idValueDecoder_ends h).field
  · exact uint64ValueDecoder_ends.field
  · exact uint64ValueDecoder_ends.field
  · exact stringValueDecoder_ends.field
  · exact (makeMapDecoder_ends stringValueDecoder_ends stringValueDecoder_ends (by omega)).field
  · exact stringValueDecoder_ends.field
  · exact (endpointValueDecoder_ends h).field

theorem decoderSliceSpanV1_ends (newCap : Nat → Nat → Nat) {fuel n : Nat} (h : 2 * n < fuel) : (decoderSliceSpanV1 newCap fuel).Ends n := by
  refine makeSliceDecoder_ends (fun m => makeStructDecoder_ends (fun f hf => ?_) h _) (by omega)
  simp only [spanV1Fields, List.mem_cons, List.not_mem_nil, or_false] at hf
  rcases hf with rfl | rfl | rfl | rfl | rfl | rfl | rfl | rfl <;> dsimp only
  · exact (idValueDecoder_ends h).field
  · exact (idValueDecoder_ends h).field
  · exact (idValueDecoder_ends h).field
  · exact uint64ValueDecoder_ends.field
  · exact uint64ValueDecoder_ends.field
  · exact stringValueDecoder_ends.field
  · refine (makeSliceDecoder_ends (makeStructDecoder_ends (fun f hf => ?_) h) (by omega)).field
    simp only [binaryAnnotationV1Fields, List.mem_cons, List.not_mem_nil, or_false] at hf
    rcases hf with rfl | rfl | rfl <;> dsimp only
    · exact stringValueDecoder_ends.field
    · exact anyValueDecoder_ends.field
    · exact (endpointValueDecoder_ends h).field
  · refine (makeArrayDecoder_ends (makeStructDecoder_ends (fun f hf => ?_) h) h).field
    simp only [annotationV1Fields, List.mem_cons, List.not_mem_nil, or_false] at hf
    rcases hf with rfl | rfl | rfl <;> dsimp only
    · exact uint64ValueDecoder_ends.field
    · exact stringValueDecoder_ends.field
    · exact (endpointValueDecoder_ends h).field

end Verif
