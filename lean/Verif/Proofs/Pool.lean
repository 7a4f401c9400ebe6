import Verif.Proofs.DocSpans

/-!
# Decoding into pooled memory
-/

namespace Verif

section
variable {σ σ' τ τ' : Type}

/-- Two programs with the same calls, that end in memory related by `R` when they succeed. -/
inductive Prog.Sim (R : σ → σ' → Prop) : Prog σ → Prog σ' → Prop
  | done {m : σ} {m' : σ'} : R m m' → Prog.Sim R (.done m) (.done m')
  | fail (m : σ) (m' : σ') : Prog.Sim R (.fail m) (.fail m')
  | timeout : Prog.Sim R .timeout .timeout
  | op (o : Op) (m : σ) (m' : σ') {k : o.Res → Prog σ} {k' : o.Res → Prog σ'} : (∀ a, Prog.Sim R (k a) (k' a)) → Prog.Sim R (.op o m k) (.op o m' k')

theorem Prog.Sim.refl (p : Prog σ) : p.Sim (· = ·) p := by
  induction p with
  | done m => exact .done rfl
  | fail m => exact .fail _ _
  | timeout => exact .timeout
  | op o m k ih => exact .op o _ _ ih

theorem Prog.Sim.andThen {R : τ → τ' → Prop} {Q : σ → σ' → Prop} {p : Prog τ} {p' : Prog τ'} (h : p.Sim R p') {f : τ → σ} {f' : τ' → σ'}
    {k : τ → Prog σ} {k' : τ' → Prog σ'} (hk : ∀ m m', R m m' → (k m).Sim Q (k' m')) : (p.andThen f k).Sim Q (p'.andThen f' k') := by
  induction h with
  | done h => exact hk _ _ h
  | fail m m' => exact .fail _ _
  | timeout => exact .timeout
  | op o m m' _ ih => exact .op o _ _ ih

/-- The outcomes are related. -/
def Decoded.Sim (R : σ → σ' → Prop) : Decoded σ → Decoded σ' → Prop
  | .ok m p, .ok m' p' => R m m' ∧ p = p'
  | .err _ p, .err _ p' => p = p'
  | .panic, .panic => True
  | .timeout, .timeout => True
  | _, _ => False

theorem Prog.Sim.run {R : σ → σ' → Prop} {p : Prog σ} {p' : Prog σ'} (h : p.Sim R p') (fuel : Nat) (q : Parser) :
    (p.run fuel q).Sim R (p'.run fuel q) := by
  induction h generalizing q with
  | done h => exact ⟨h, rfl⟩
  | fail m m' => exact rfl
  | timeout => exact trivial
  | op o m m' _ ih =>
    unfold Prog.run
    cases o.run fuel q with
    | ok a q => exact ih _ _
    | err q => exact rfl
    | panic => exact trivial
    | timeout => exact trivial

theorem nextType_sim {R : σ → σ' → Prop} {m : σ} {m' : σ'} {k : JType → Prog σ} {k' : JType → Prog σ'} (h : ∀ t, (k t).Sim R (k' t)) :
    (nextType m k).Sim R (nextType m' k') := by
  refine .op _ _ _ fun _ => .op _ _ _ fun c => ?_
  split
  · exact .fail _ _
  · exact h _

theorem consume_sim {R : σ → σ' → Prop} {t : Punct} {m : σ} {m' : σ'} {k : Prog σ} {k' : Prog σ'} (h : k.Sim R k') :
    (consume t m k).Sim R (consume t m' k') :=
  .op _ _ _ fun _ => .op _ _ _ fun _ => h

theorem readString_sim {R : σ → σ' → Prop} {m : σ} {m' : σ'} {k : Str → Prog σ} {k' : Str → Prog σ'} (h : ∀ t, (k t).Sim R (k' t)) :
    (readString m k).Sim R (readString m' k') :=
  .op _ _ _ fun _ => .op _ _ _ fun t => h t

theorem structLoop_sim {R : σ → σ → Prop} {fields : List (Str × ValueDecoder σ)}
    (hf : ∀ name d, (name, d) ∈ fields → ∀ m m', R m m' → (d m).Sim R (d m')) (sf fuel : Nat) {m m' : σ} (h : R m m') :
    (structLoop sf fields fuel m).Sim R (structLoop sf fields fuel m') := by
  induction fuel generalizing m m' with
  | zero => exact .timeout
  | succ fuel ih =>
    refine nextType_sim fun t => ?_
    split
    · exact consume_sim (.done h)
    · refine readString_sim fun key => ?_
      split
      · rename_i d hd
        refine (hf key d ?_ m m' h).andThen fun _ _ h => ih h
        exact lookup_mem hd
      · exact (Prog.Sim.refl _).andThen fun _ _ _ => ih h

/-- Fields with the same names, and decoders that are related. -/
theorem lookup_sim {R : σ → σ' → Prop} {fields : List (Str × ValueDecoder σ)} {fields' : List (Str × ValueDecoder σ')}
    (hf : Spec.Pairwise₂ (fun f f' => f.1 = f'.1 ∧ ∀ m m', R m m' → (f.2 m).Sim R (f'.2 m')) fields fields') (key : Str) :
    (fields.lookup key = none ∧ fields'.lookup key = none) ∨
      ∃ d d', fields.lookup key = some d ∧ fields'.lookup key = some d' ∧ ∀ m m', R m m' → (d m).Sim R (d' m') := by
  induction hf with
  | nil => exact .inl ⟨rfl, rfl⟩
  | @cons f f' _ _ h _ ih =>
    obtain ⟨name, d⟩ := f
    obtain ⟨name', d'⟩ := f'
    obtain ⟨rfl, h⟩ := h
    simp only [List.lookup_cons]
    cases hk : key == name with
    | true => exact .inr ⟨d, d', rfl, rfl, h⟩
    | false => exact ih

theorem structLoop_fields {R : σ → σ' → Prop} {fields : List (Str × ValueDecoder σ)} {fields' : List (Str × ValueDecoder σ')}
    (hf : Spec.Pairwise₂ (fun f f' => f.1 = f'.1 ∧ ∀ m m', R m m' → (f.2 m).Sim R (f'.2 m')) fields fields') (sf fuel : Nat) {m : σ} {m' : σ'} (h : R m m') :
    (structLoop sf fields fuel m).Sim R (structLoop sf fields' fuel m') := by
  induction fuel generalizing m m' with
  | zero => exact .timeout
  | succ fuel ih =>
    refine nextType_sim fun t => ?_
    split
    · exact consume_sim (.done h)
    · refine readString_sim fun key => ?_
      rcases lookup_sim hf key with ⟨e, e'⟩ | ⟨d, d', e, e', hd⟩
      · rw [e, e']
        exact (Prog.Sim.refl _).andThen fun _ _ _ => ih h
      · rw [e, e']
        exact (hd m m' h).andThen fun _ _ h => ih h

theorem field_sim {R : σ → σ → Prop} {get : σ → τ} {set : τ → σ → σ} {d : ValueDecoder τ} {m m' : σ} (hg : get m = get m')
    (hs : ∀ v, R (set v m) (set v m')) : (d.field get set m).Sim R (d.field get set m') := by
  unfold ValueDecoder.field
  rw [hg]
  refine (Prog.Sim.refl _).andThen fun v v' e => ?_
  subst e
  exact .done (hs v)

end

/-! ## Binary annotations -/

/-- The same slice, where also the cells behind it are the same, but for the number of empty cells at the end. -/
def Pad (s s' : GoSlice BinaryAnnotationV1) : Prop :=
  s.len = s'.len ∧ ∃ M, s.len ≤ M ∧ M ≤ s.cells.length ∧ M ≤ s'.cells.length ∧ (∀ i, s.cells.getD i {} = s'.cells.getD i {}) ∧
    ∀ i, M ≤ i → s.cells.getD i {} = {}

theorem grow_getD {α : Type} {newCap : Nat → Nat → Nat} {zero : α} {s : GoSlice α} {n : Nat}
    (h : s.cells.length < n → ∀ i, s.len ≤ i → s.cells.getD i zero = zero) (i : Nat) :
    (s.grow newCap zero n).cells.getD i zero = s.cells.getD i zero := by
  unfold GoSlice.grow
  split
  · rfl
  · rename_i hn
    simp only [GoSlice.elems, List.getD_eq_getElem?_getD]
    by_cases hi : i < (s.cells.take s.len).length
    · rw [List.getElem?_append_left hi, List.getElem?_take_of_lt (by rw [List.length_take] at hi; omega)]
    · rw [List.getElem?_append_right (by omega), List.getElem?_replicate]
      have hz : s.cells[i]?.getD zero = zero := by
        by_cases hl : s.len ≤ i
        · have := h (by omega) i hl
          rwa [List.getD_eq_getElem?_getD] at this
        · rw [List.getElem?_eq_none (by rw [List.length_take] at hi; omega)]
          rfl
      rw [hz]
      split <;> rfl

theorem grow_length {α : Type} {newCap : Nat → Nat → Nat} {zero : α} {s : GoSlice α} {n : Nat} : n ≤ (s.grow newCap zero n).cells.length := by
  unfold GoSlice.grow
  split
  · assumption
  · simp only [List.length_append, List.length_replicate]
    omega

theorem grow_cap {α : Type} {newCap : Nat → Nat → Nat} {zero : α} {s : GoSlice α} {n : Nat} :
    s.cells.length ≤ (s.grow newCap zero n).cells.length := by
  unfold GoSlice.grow
  split
  · exact Nat.le_refl _
  · simp only [List.length_append, List.length_replicate, GoSlice.elems, List.length_take]
    omega

theorem grow_len {α : Type} {newCap : Nat → Nat → Nat} {zero : α} {s : GoSlice α} {n : Nat} : (s.grow newCap zero n).len = n := by
  unfold GoSlice.grow
  split <;> rfl

theorem pushAll_cap {α : Type} (newCap : Nat → Nat → Nat) (zero : α) (fs : List (α → α)) (idx : Nat) (s : GoSlice α) :
    s.cells.length ≤ (pushAll newCap zero fs idx s).cells.length := by
  induction fs generalizing idx s with
  | nil => exact Nat.le_refl _
  | cons f fs ih =>
    refine Nat.le_trans ?_ (ih _ _)
    rw [GoSlice.set, List.length_set]
    exact grow_cap

theorem getD_set {α : Type} {zero : α} {l : List α} {idx : Nat} (h : idx < l.length) (a : α) (i : Nat) :
    (l.set idx a).getD i zero = if i = idx then a else l.getD i zero := by
  simp only [List.getD_eq_getElem?_getD, List.getElem?_set]
  by_cases hi : idx = i
  · subst hi
    simp [h]
  · rw [if_neg hi, if_neg (fun e => hi e.symm)]

theorem sliceLoop_pad {newCap newCap' : Nat → Nat → Nat} {d : ValueDecoder BinaryAnnotationV1} (fuel idx : Nat) {s s' : GoSlice BinaryAnnotationV1} (h : Pad s s')
    (hi : idx = 0 ∨ s.len = idx) : (sliceLoop newCap {} d fuel idx s).Sim Pad (sliceLoop newCap' {} d fuel idx s') := by
  induction fuel generalizing idx s s' with
  | zero => exact .timeout
  | succ fuel ih =>
    refine nextType_sim fun t => ?_
    split
    · exact consume_sim (.done h)
    · obtain ⟨hl, M, h1, h2, h3, h4, h5⟩ := h
      have g : ∀ i, (s.grow newCap {} (idx + 1)).cells.getD i {} = s.cells.getD i {} := grow_getD fun hc i hli => h5 i (by omega)
      have g' : ∀ i, (s'.grow newCap' {} (idx + 1)).cells.getD i {} = s'.cells.getD i {} := grow_getD fun hc i hli => by
        rw [← h4]
        exact h5 i (by omega)
      have e : (s.grow newCap {} (idx + 1)).cells.getD idx {} = (s'.grow newCap' {} (idx + 1)).cells.getD idx {} := by rw [g, g', h4]
      dsimp only
      rw [e]
      refine (Prog.Sim.refl _).andThen fun v v' e => ?_
      subst e
      refine ih (idx + 1) ?_ (.inr grow_len)
      have l1 := grow_length (newCap := newCap) (zero := ({} : BinaryAnnotationV1)) (s := s) (n := idx + 1)
      have l1' := grow_length (newCap := newCap') (zero := ({} : BinaryAnnotationV1)) (s := s') (n := idx + 1)
      have l2 := grow_cap (newCap := newCap) (zero := ({} : BinaryAnnotationV1)) (s := s) (n := idx + 1)
      have l2' := grow_cap (newCap := newCap') (zero := ({} : BinaryAnnotationV1)) (s := s') (n := idx + 1)
      refine ⟨?_, max M (idx + 1), ?_, ?_, ?_, ?_, ?_⟩
      · simp only [GoSlice.set, grow_len]
      · simp only [GoSlice.set, grow_len]
        omega
      · simp only [GoSlice.set, List.length_set]
        omega
      · simp only [GoSlice.set, List.length_set]
        omega
      · intro i
        simp only [GoSlice.set]
        rw [getD_set (by omega), getD_set (by omega), g, g', h4]
      · intro i hi
        simp only [GoSlice.set]
        rw [getD_set (by omega), if_neg (by omega), g]
        exact h5 i (by omega)

theorem Pad.elems {s s' : GoSlice BinaryAnnotationV1} (h : Pad s s') : s.elems = s'.elems := by
  obtain ⟨hl, M, h1, h2, h3, h4, _⟩ := h
  refine List.ext_getElem (by simp only [GoSlice.elems, List.length_take]; omega) fun i hi hi' => ?_
  have := h4 i
  simp only [GoSlice.elems, List.length_take] at hi hi'
  rw [List.getD_eq_getElem?_getD, List.getD_eq_getElem?_getD, List.getElem?_eq_getElem (by omega), List.getElem?_eq_getElem (by omega)] at this
  simpa only [GoSlice.elems, List.getElem_take, Option.getD_some] using this

/-! ## Spans -/

/-- The same span, but for the number of empty cells behind its binary annotations. -/
def SameSpan (v v' : SpanV1) : Prop :=
  v.id = v'.id ∧ v.traceId = v'.traceId ∧ v.parentId = v'.parentId ∧ v.timestamp = v'.timestamp ∧ v.duration = v'.duration ∧ v.name = v'.name ∧
    v.annotations = v'.annotations ∧ Pad v.binaryAnnotations v'.binaryAnnotations

theorem SameSpan.toSpan {v v' : SpanV1} (h : SameSpan v v') : v.toSpan = v'.toSpan := by
  obtain ⟨h1, h2, h3, h4, h5, h6, h7, h8⟩ := h
  simp only [SpanV1.toSpan, h1, h2, h3, h4, h5, h6, h7, h8.elems]

theorem spanV1_sim (newCap newCap' : Nat → Nat → Nat) (fuel : Nat) {a a' : SpanV1} (h : Clean a) (h' : Clean a') :
    (spanV1ValueDecoder newCap fuel a).Sim SameSpan (spanV1ValueDecoder newCap' fuel a') := by
  have hreset : SameSpan a.reset a'.reset := by
    obtain ⟨_, _, f⟩ := reset_fresh h
    obtain ⟨_, _, f'⟩ := reset_fresh h'
    refine ⟨rfl, rfl, rfl, rfl, rfl, rfl, rfl, rfl, 0, Nat.le_refl _, Nat.zero_le _, Nat.zero_le _, fun i => ?_, fun i _ => f i (Nat.zero_le _)⟩
    rw [f i (Nat.zero_le _), f' i (Nat.zero_le _)]
  unfold spanV1ValueDecoder makeStructDecoder
  refine consume_sim (structLoop_fields ?_ _ _ hreset)
  unfold spanV1Fields
  refine .cons ⟨rfl, fun m m' hm => ?_⟩ <| .cons ⟨rfl, fun m m' hm => ?_⟩ <| .cons ⟨rfl, fun m m' hm => ?_⟩ <| .cons ⟨rfl, fun m m' hm => ?_⟩ <|
    .cons ⟨rfl, fun m m' hm => ?_⟩ <| .cons ⟨rfl, fun m m' hm => ?_⟩ <| .cons ⟨rfl, fun m m' hm => ?_⟩ <| .cons ⟨rfl, fun m m' hm => ?_⟩ .nil
  all_goals obtain ⟨h1, h2, h3, h4, h5, h6, h7, h8⟩ := hm
  all_goals dsimp only
  · exact field_sim h1 fun v => ⟨rfl, h2, h3, h4, h5, h6, h7, h8⟩
  · exact field_sim h2 fun v => ⟨h1, rfl, h3, h4, h5, h6, h7, h8⟩
  · exact field_sim h3 fun v => ⟨h1, h2, rfl, h4, h5, h6, h7, h8⟩
  · exact field_sim h4 fun v => ⟨h1, h2, h3, rfl, h5, h6, h7, h8⟩
  · exact field_sim h5 fun v => ⟨h1, h2, h3, h4, rfl, h6, h7, h8⟩
  · exact field_sim h6 fun v => ⟨h1, h2, h3, h4, h5, rfl, h7, h8⟩
  · unfold ValueDecoder.field makeSliceDecoder
    refine Prog.Sim.andThen (R := Pad) (consume_sim (sliceLoop_pad _ _ h8 (.inl rfl))) fun b b' hb => ?_
    exact .done ⟨h1, h2, h3, h4, h5, h6, h7, hb⟩
  · exact field_sim h7 fun v => ⟨h1, h2, h3, h4, h5, h6, rfl, h8⟩

theorem clean_default : Clean {} := ⟨Nat.le_refl _, fun _ _ => rfl⟩

theorem sliceLoop_spans (newCap newCap' : Nat → Nat → Nat) (F fuel idx : Nat) {s s' : GoSlice SpanV1} (hl : s.len = idx) (hl' : s'.len = idx)
    (hc : idx ≤ s.cells.length) (hc' : idx ≤ s'.cells.length) (hs : s.elems.map SpanV1.toSpan = s'.elems.map SpanV1.toSpan)
    (hg : ∀ i, idx ≤ i → Clean (s.cells.getD i {})) (hg' : ∀ i, idx ≤ i → Clean (s'.cells.getD i {})) :
    (sliceLoop newCap {} (spanV1ValueDecoder newCap F) fuel idx s).Sim (fun s s' => s.elems.map SpanV1.toSpan = s'.elems.map SpanV1.toSpan)
      (sliceLoop newCap' {} (spanV1ValueDecoder newCap' F) fuel idx s') := by
  induction fuel generalizing idx s s' with
  | zero => exact .timeout
  | succ fuel ih =>
    refine nextType_sim fun t => ?_
    split
    · exact consume_sim (.done hs)
    · have fr : Fresh {} Clean idx s := ⟨hl, hc, hg⟩
      have fr' : Fresh {} Clean idx s' := ⟨hl', hc', hg'⟩
      refine (spanV1_sim newCap newCap' F (fresh_grow clean_default fr) (fresh_grow clean_default fr')).andThen fun v v' hv => ?_
      obtain ⟨⟨a1, a2, a3⟩, a4⟩ := fresh_push (newCap := newCap) clean_default fr v
      obtain ⟨⟨b1, b2, b3⟩, b4⟩ := fresh_push (newCap := newCap') clean_default fr' v'
      refine ih (idx + 1) a1 b1 a2 b2 ?_ a3 b3
      rw [a4, b4, List.map_append, List.map_append, hs, List.map_singleton, List.map_singleton, hv.toSpan]

theorem sliceLoop_values {α : Type} (newCap newCap' : Nat → Nat → Nat) (zero : α) (p : Prog α) (fuel idx : Nat) {s s' : GoSlice α} (hl : s.len = idx) (hl' : s'.len = idx)
    (hc : idx ≤ s.cells.length) (hc' : idx ≤ s'.cells.length) (hs : s.elems = s'.elems) :
    (sliceLoop newCap zero (fun _ => p) fuel idx s).Sim (fun s s' => s.elems = s'.elems) (sliceLoop newCap' zero (fun _ => p) fuel idx s') := by
  induction fuel generalizing idx s s' with
  | zero => exact .timeout
  | succ fuel ih =>
    refine nextType_sim fun t => ?_
    split
    · exact consume_sim (.done hs)
    · have fr : Fresh zero (fun _ => True) idx s := ⟨hl, hc, fun _ _ => trivial⟩
      have fr' : Fresh zero (fun _ => True) idx s' := ⟨hl', hc', fun _ _ => trivial⟩
      refine (Prog.Sim.refl p).andThen fun v v' hv => ?_
      obtain ⟨⟨a1, a2, _⟩, a4⟩ := fresh_push (newCap := newCap) trivial fr v
      obtain ⟨⟨b1, b2, _⟩, b4⟩ := fresh_push (newCap := newCap') trivial fr' v'
      refine ih (idx + 1) a1 b1 a2 b2 ?_
      rw [a4, b4, hs, hv]

end Verif
