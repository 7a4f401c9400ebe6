import Verif.Props.Parser

/-!
# What a decoder does with the beginning of a body
-/

namespace Verif

/-! ## Operations -/

theorem dropWhile_append_ne {f : UInt8 → Bool} {s : List UInt8} (h : s.dropWhile f ≠ []) (q : List UInt8) : (s ++ q).dropWhile f = s.dropWhile f ++ q := by
  induction s with
  | nil => simp at h
  | cons c s ih =>
    rw [List.cons_append, List.dropWhile_cons, List.dropWhile_cons]
    rw [List.dropWhile_cons] at h
    by_cases hc : f c = true
    · rw [if_pos hc] at h ⊢
      rw [if_pos hc]
      exact ih h
    · rw [if_neg hc, if_neg hc]
      rfl

theorem takeWhile_append_ne {f : UInt8 → Bool} {s : List UInt8} (h : s.dropWhile f ≠ []) (q : List UInt8) : (s ++ q).takeWhile f = s.takeWhile f := by
  induction s with
  | nil => simp at h
  | cons c s ih =>
    rw [List.cons_append, List.takeWhile_cons, List.takeWhile_cons]
    rw [List.dropWhile_cons] at h
    by_cases hc : f c = true
    · rw [if_pos hc] at h ⊢
      rw [if_pos hc, ih h]
    · rw [if_neg hc, if_neg hc]

theorem dropWhile_shrink {f : UInt8 → Bool} {s q s' : List UInt8} (h : (s ++ q).dropWhile f = s' ++ q) (hs : s' ≠ []) : s.dropWhile f = s' := by
  have hne : s.dropWhile f ≠ [] := by
    intro he
    have hall : ∀ c ∈ s, f c = true := by
      intro c hc
      refine Classical.byContradiction fun hf => ?_
      have : s.dropWhile f ≠ [] := by
        clear h he
        induction s with
        | nil => cases hc
        | cons x s ih =>
          rw [List.dropWhile_cons]
          rcases List.mem_cons.mp hc with rfl | hc
          · rw [if_neg hf]; simp
          · split
            · exact ih hc
            · simp
      exact this he
    rw [List.dropWhile_append_of_pos hall] at h
    have h1 : (q.dropWhile f).length ≤ q.length := (List.dropWhile_suffix f).length_le
    have h2 := congrArg List.length h
    rw [List.length_append] at h2
    have h3 : s'.length ≠ 0 := by simpa using hs
    omega
  rw [dropWhile_append_ne hne] at h
  exact List.append_cancel_right h

theorem scanString_extend {esc : Bool} {s body s' : List UInt8} (h : scanString esc s = some (body, s')) (q : List UInt8) :
    scanString esc (s ++ q) = some (body, s' ++ q) := by
  induction s generalizing esc body with
  | nil => simp [scanString] at h
  | cons c s ih =>
    have key : ∀ e', (scanString e' s).map (fun r => (c :: r.1, r.2)) = some (body, s') → (scanString e' (s ++ q)).map (fun r => (c :: r.1, r.2)) = some (body, s' ++ q) := by
      intro e' he
      obtain ⟨⟨b, t⟩, h1, h2⟩ := Option.map_eq_some_iff.mp he
      injection h2 with h2 h3
      dsimp only at h3
      subst h3
      rw [ih h1]
      simp [← h2]
    cases esc with
    | true =>
      simp only [scanString, List.cons_append] at h ⊢
      exact key _ h
    | false =>
      simp only [scanString, List.cons_append] at h ⊢
      split at h
      · rw [if_pos ‹_›]; exact key _ h
      · rw [if_neg ‹_›]
        split at h
        · rw [if_pos ‹_›]
          simp only [Option.some.injEq, Prod.mk.injEq] at h ⊢
          exact ⟨h.1, by rw [h.2]⟩
        · rw [if_neg ‹_›]; exact key _ h

theorem scanString_shrink {esc : Bool} {s q body s' : List UInt8} (h : scanString esc (s ++ q) = some (body, s' ++ q)) : scanString esc s = some (body, s') := by
  induction s generalizing esc body with
  | nil =>
    have h1 := scanString_length h
    simp only [List.nil_append, List.length_append] at h1
    omega
  | cons c s ih =>
    have key : ∀ e', (scanString e' (s ++ q)).map (fun r => (c :: r.1, r.2)) = some (body, s' ++ q) → (scanString e' s).map (fun r => (c :: r.1, r.2)) = some (body, s') := by
      intro e' he
      obtain ⟨⟨b, t⟩, h1, h2⟩ := Option.map_eq_some_iff.mp he
      injection h2 with h2 h3
      dsimp only at h3
      subst h3
      rw [ih h1]
      simp [← h2]
    cases esc with
    | true =>
      simp only [scanString, List.cons_append] at h ⊢
      exact key _ h
    | false =>
      simp only [scanString, List.cons_append] at h ⊢
      split at h
      · rw [if_pos ‹_›]; exact key _ h
      · rw [if_neg ‹_›]
        split at h
        · rw [if_pos ‹_›]
          simp only [Option.some.injEq, Prod.mk.injEq] at h ⊢
          exact ⟨h.1, List.append_cancel_right h.2⟩
        · rw [if_neg ‹_›]; exact key _ h

/-- More bytes after those that an operation needs make no difference. -/
theorem Op.stream_extend (o : Op) {s s' : List UInt8} {a : o.Res} (h : o.stream s = .ok a s') (q : List UInt8) : o.stream (s ++ q) = .ok a (s' ++ q) := by
  cases o with
  | skipWhitespace =>
    have e : ∀ l : List UInt8, Op.stream .skipWhitespace l = if l.dropWhile isCharSpace = [] then .err else .ok () (l.dropWhile isCharSpace) := by
      intro l; simp only [Op.stream]; split <;> simp_all
    rw [e] at h ⊢
    by_cases hd : s.dropWhile isCharSpace = []
    · rw [if_pos hd] at h; cases h
    · rw [if_neg hd] at h
      rw [dropWhile_append_ne hd, if_neg (by simp [hd])]
      injection h with h1 h2
      rw [h2]
  | current =>
    cases s with
    | nil => simp [Op.stream] at h
    | cons c s =>
      simp only [Op.stream, SRun.ok.injEq] at h
      simp only [Op.stream, List.cons_append, SRun.ok.injEq]
      exact ⟨h.1, by rw [← h.2]; rfl⟩
  | consume t =>
    cases s with
    | nil => simp [Op.stream] at h
    | cons c s =>
      simp only [Op.stream, List.cons_append] at h ⊢
      split at h
      · rw [if_pos ‹_›]
        injection h with h1 h2
        rw [h2]
      · cases h
  | readString =>
    cases s with
    | nil => simp [Op.stream] at h
    | cons c s =>
      simp only [Op.stream, List.cons_append] at h ⊢
      by_cases hc : c = c!"\""
      · rw [if_neg (by simp [hc])] at h ⊢
        cases hs : scanString false s with
        | none => rw [hs] at h; simp at h
        | some r =>
          obtain ⟨body, t⟩ := r
          rw [hs] at h
          rw [scanString_extend hs]
          simp only at h ⊢
          cases hu : Spec.unescape body with
          | none => rw [hu] at h; simp at h
          | some v =>
            rw [hu] at h
            simp only [SRun.ok.injEq] at h ⊢
            exact ⟨h.1, by rw [h.2]⟩
      · rw [if_pos hc] at h; cases h
  | readNumber =>
    have e : ∀ (c : UInt8) (l : List UInt8), Op.stream .readNumber (c :: l) =
        if !isCharDigit c then .err else if l.dropWhile numberChar = [] then .err else .ok (c :: l.takeWhile numberChar) (l.dropWhile numberChar) := by
      intro c l; simp only [Op.stream]; split
      · rfl
      · split <;> simp_all
    cases s with
    | nil => simp [Op.stream] at h
    | cons c s =>
      rw [e] at h
      rw [List.cons_append, e]
      split at h
      · cases h
      · rw [if_neg ‹_›]
        split at h
        · cases h
        · rename_i hd
          rw [dropWhile_append_ne hd, takeWhile_append_ne hd, if_neg (by simp [hd])]
          injection h with h1 h2
          rw [h1, h2]
  | readWord w =>
    cases s with
    | nil => simp [Op.stream] at h
    | cons c s =>
      simp only [Op.stream] at h
      rw [List.cons_append]
      simp only [Op.stream]
      split at h
      · cases h
      · rename_i hl
        rw [← List.cons_append, if_neg (by rw [List.length_append]; omega)]
        split at h
        · cases h
        · rw [if_neg ‹_›]
          injection h with h1 h2
          rw [List.take_append_of_le_length (by omega), List.drop_append_of_le_length (by omega), h1, h2]

/-- The operation does not look at the byte behind those that it consumes. -/
def Op.exact : Op → Bool
  | .consume _ => true
  | _ => false

/-- Without the bytes behind those that an operation needs it does the same. -/
theorem Op.stream_shrink (o : Op) {s q s' : List UInt8} {a : o.Res} (h : o.stream (s ++ q) = .ok a (s' ++ q)) (hs : o.exact = true ∨ s' ≠ []) : o.stream s = .ok a s' := by
  cases o with
  | skipWhitespace =>
    have hs : s' ≠ [] := by simpa [Op.exact] using hs
    have e : ∀ l : List UInt8, Op.stream .skipWhitespace l = if l.dropWhile isCharSpace = [] then .err else .ok () (l.dropWhile isCharSpace) := by
      intro l; simp only [Op.stream]; split <;> simp_all
    rw [e] at h ⊢
    split at h
    · cases h
    · injection h with h1 h2
      rw [dropWhile_shrink h2 hs, if_neg hs]
  | current =>
    have hs : s' ≠ [] := by simpa [Op.exact] using hs
    cases hsq : s ++ q with
    | nil => rw [hsq] at h; simp [Op.stream] at h
    | cons c t =>
      rw [hsq] at h
      simp only [Op.stream, SRun.ok.injEq] at h
      have : s = s' := List.append_cancel_right (hsq.trans h.2)
      subst this
      cases s with
      | nil => exact absurd rfl hs
      | cons d s =>
        rw [List.cons_append] at hsq
        injection hsq with h3 h4
        simp only [Op.stream, SRun.ok.injEq, and_true]
        rw [h3]; exact h.1
  | consume t =>
    cases s with
    | nil =>
      cases q with
      | nil => simp [Op.stream] at h
      | cons c q =>
        simp only [List.nil_append, Op.stream] at h
        split at h
        · injection h with h1 h2
          have := congrArg List.length h2
          rw [List.length_append, List.length_cons] at this
          omega
        · cases h
    | cons c s =>
      simp only [Op.stream, List.cons_append] at h ⊢
      split at h
      · rw [if_pos ‹_›]
        injection h with h1 h2
        rw [List.append_cancel_right h2]
      · cases h
  | readString =>
    have hs : s' ≠ [] := by simpa [Op.exact] using hs
    cases s with
    | nil =>
      have := Op.stream_eats .readString h
      simp only [Op.eats, List.nil_append, List.length_append] at this
      omega
    | cons c s =>
      simp only [Op.stream, List.cons_append] at h ⊢
      by_cases hc : c = c!"\""
      · rw [if_neg (by simp [hc])] at h ⊢
        cases hsc : scanString false (s ++ q) with
        | none => rw [hsc] at h; simp at h
        | some r =>
          obtain ⟨body, t⟩ := r
          rw [hsc] at h
          simp only at h
          cases hu : Spec.unescape body with
          | none => rw [hu] at h; simp at h
          | some v =>
            rw [hu] at h
            simp only [SRun.ok.injEq] at h
            rw [h.2] at hsc
            rw [scanString_shrink hsc]
            simp only [hu, SRun.ok.injEq, and_true]
            exact h.1
      · rw [if_pos hc] at h; cases h
  | readNumber =>
    have hs : s' ≠ [] := by simpa [Op.exact] using hs
    have e : ∀ (c : UInt8) (l : List UInt8), Op.stream .readNumber (c :: l) =
        if !isCharDigit c then .err else if l.dropWhile numberChar = [] then .err else .ok (c :: l.takeWhile numberChar) (l.dropWhile numberChar) := by
      intro c l; simp only [Op.stream]; split
      · rfl
      · split <;> simp_all
    cases s with
    | nil =>
      have := Op.stream_eats .readNumber h
      simp only [Op.eats, List.nil_append, List.length_append] at this
      omega
    | cons c s =>
      rw [List.cons_append, e] at h
      rw [e]
      split at h
      · cases h
      · rw [if_neg ‹_›]
        split at h
        · cases h
        · injection h with h1 h2
          have hd := dropWhile_shrink h2 hs
          rw [takeWhile_append_ne (by rw [hd]; exact hs)] at h1
          rw [hd, if_neg hs, h1]
  | readWord w =>
    have hs : s' ≠ [] := by simpa [Op.exact] using hs
    cases s with
    | nil =>
      have := Op.stream_eats (.readWord w) h
      simp only [Op.eats, List.nil_append, List.length_append] at this
      omega
    | cons c s =>
      rw [List.cons_append] at h
      simp only [Op.stream] at h ⊢
      split at h
      · cases h
      · rename_i hl
        split at h
        · cases h
        · rename_i hc
          injection h with h1 h2
          have hlen := congrArg List.length h2
          rw [← List.cons_append] at hlen hl h1 h2
          rw [List.length_drop, List.length_append, List.length_append] at hlen
          rw [List.length_append] at hl
          have h3 : w.length ≤ (c :: s).length := by omega
          rw [if_neg (by omega), if_neg hc]
          rw [List.take_append_of_le_length h3] at h1
          rw [List.drop_append_of_le_length h3] at h2
          rw [h1, List.append_cancel_right h2]

theorem Op.stream_suffix (o : Op) {s s' : List UInt8} {a : o.Res} (h : o.stream s = .ok a s') : s' <:+ s := by
  cases o with
  | skipWhitespace =>
    simp only [Op.stream] at h
    split at h
    · cases h
    · injection h with h1 h2
      rw [← h2]
      exact List.dropWhile_suffix _
  | current =>
    cases s with
    | nil => simp [Op.stream] at h
    | cons c s =>
      simp only [Op.stream, SRun.ok.injEq] at h
      rw [← h.2]
      exact List.suffix_refl _
  | consume t =>
    cases s with
    | nil => simp [Op.stream] at h
    | cons c s =>
      simp only [Op.stream] at h
      split at h
      · injection h with h1 h2
        rw [← h2]
        exact List.suffix_cons _ _
      · cases h
  | readString =>
    cases s with
    | nil => simp [Op.stream] at h
    | cons c s =>
      have key : ∀ (s : List UInt8) (e : Bool) (body t : List UInt8), scanString e s = some (body, t) → t <:+ s := by
        intro s
        induction s with
        | nil => intro e body t h; simp [scanString] at h
        | cons c s ih =>
          have k2 : ∀ e' body t, (scanString e' s).map (fun r => (c :: r.1, r.2)) = some (body, t) → t <:+ c :: s := by
            intro e' body t he
            obtain ⟨⟨b, u⟩, h1, h2⟩ := Option.map_eq_some_iff.mp he
            injection h2 with _ h3
            dsimp only at h3
            subst h3
            exact (ih _ _ _ h1).trans (List.suffix_cons _ _)
          intro e body t h
          cases e with
          | true => simp only [scanString] at h; exact k2 _ _ _ h
          | false =>
            simp only [scanString] at h
            split at h
            · exact k2 _ _ _ h
            · split at h
              · simp only [Option.some.injEq, Prod.mk.injEq] at h
                rw [← h.2]; exact List.suffix_cons _ _
              · exact k2 _ _ _ h
      simp only [Op.stream] at h
      split at h
      · cases h
      · cases hs : scanString false s with
        | none => rw [hs] at h; simp at h
        | some r =>
          obtain ⟨body, t⟩ := r
          rw [hs] at h
          simp only at h
          cases hu : Spec.unescape body with
          | none => rw [hu] at h; simp at h
          | some v =>
            rw [hu] at h
            simp only [SRun.ok.injEq] at h
            rw [← h.2]
            exact (key _ _ _ _ hs).trans (List.suffix_cons _ _)
  | readNumber =>
    cases s with
    | nil => simp [Op.stream] at h
    | cons c s =>
      simp only [Op.stream] at h
      split at h
      · cases h
      · split at h
        · cases h
        · injection h with h1 h2
          rw [← h2]
          exact (List.dropWhile_suffix _).trans (List.suffix_cons _ _)
  | readWord w =>
    cases s with
    | nil => simp [Op.stream] at h
    | cons c s =>
      simp only [Op.stream] at h
      split at h
      · cases h
      · split at h
        · cases h
        · injection h with h1 h2
          rw [← h2]
          exact List.drop_suffix _ _

/-! ## Programs -/

theorem Prog.stream_extend {σ : Type} {prog : Prog σ} {r r' : Bool} {s s' : List UInt8} {m : σ} (h : prog.stream r s = .ok m r' s') (q : List UInt8) :
    prog.stream r (s ++ q) = .ok m r' (s' ++ q) := by
  induction prog generalizing r s with
  | done m' =>
    simp only [Prog.stream, SDecoded.ok.injEq] at h ⊢
    exact ⟨h.1, h.2.1, by rw [h.2.2]⟩
  | fail m' => simp [Prog.stream] at h
  | timeout => simp [Prog.stream] at h
  | op o m' k ih =>
    simp only [Prog.stream] at h ⊢
    split at h
    · cases h
    · rw [if_neg ‹_›]
      cases ho : o.stream s with
      | ok a s1 =>
        rw [ho] at h
        rw [o.stream_extend ho q]
        exact ih a h
      | err => rw [ho] at h; cases h
      | bad => rw [ho] at h; cases h

theorem Prog.stream_suffix {σ : Type} {prog : Prog σ} {r r' : Bool} {s s' : List UInt8} {m : σ} (h : prog.stream r s = .ok m r' s') : s' <:+ s := by
  induction prog generalizing r s with
  | done m' =>
    simp only [Prog.stream, SDecoded.ok.injEq] at h
    rw [h.2.2]; exact List.suffix_refl _
  | fail m' => simp [Prog.stream] at h
  | timeout => simp [Prog.stream] at h
  | op o m' k ih =>
    simp only [Prog.stream] at h
    split at h
    · cases h
    · cases ho : o.stream s with
      | ok a s1 =>
        rw [ho] at h
        exact (ih a h).trans (o.stream_suffix ho)
      | err => rw [ho] at h; cases h
      | bad => rw [ho] at h; cases h

/-- The last operation before a success is that this token is consumed (`b`: it was just consumed). -/
def Prog.Closes {σ : Type} (t : Punct) : Prop → Prog σ → Prop
  | b, .done _ => b
  | _, .fail _ => True
  | _, .timeout => True
  | _, .op o _ k => ∀ a, (k a).Closes t (o = .consume t)

theorem Prog.Closes.mono {σ : Type} {t : Punct} {p : Prog σ} (h : p.Closes t False) (b : Prop) : p.Closes t b := by
  cases p with
  | done m => cases h
  | fail m => trivial
  | timeout => trivial
  | op o m k => exact h

theorem Prog.Closes.andThen {τ σ : Type} {t : Punct} (f : τ → σ) {k : τ → Prog σ} (hk : ∀ m, (k m).Closes t False) (p : Prog τ) (b : Prop) : (p.andThen f k).Closes t b := by
  induction p generalizing b with
  | done m => exact (hk m).mono b
  | fail m => trivial
  | timeout => trivial
  | op o m k' ih => exact fun a => ih a _

theorem closes_consume {σ : Type} (t : Punct) (m m' : σ) (b : Prop) : (consume t m (.done m')).Closes t b := by
  intro _ _
  rfl

theorem closes_sliceLoop {α : Type} (newCap : Nat → Nat → Nat) (zero : α) (d : ValueDecoder α) (fuel idx : Nat) (s : GoSlice α) (b : Prop) :
    (sliceLoop newCap zero d fuel idx s).Closes .arrayEnd b := by
  induction fuel generalizing idx s b with
  | zero => trivial
  | succ fuel ih =>
    intro _ c
    dsimp only
    split
    · trivial
    · split
      · exact closes_consume _ _ _ _
      · exact Prog.Closes.andThen _ (fun m => ih _ _ _) _ _

theorem closes_slice {α : Type} (newCap : Nat → Nat → Nat) (fuel : Nat) (zero : α) (d : ValueDecoder α) (s : GoSlice α) : (makeSliceDecoder newCap fuel zero d s).Closes .arrayEnd False := by
  intro _ _
  exact closes_sliceLoop _ _ _ _ _ _ _

theorem Prog.Closes.shrink {σ : Type} {t : Punct} {prog : Prog σ} {b : Prop} {r r' : Bool} {s q : List UInt8} {m : σ} (hc : prog.Closes t b) (h : prog.stream r (s ++ q) = .ok m r' q) :
    prog.stream r s = .ok m r' [] ∧ (s = [] → b) := by
  induction prog generalizing r s b with
  | done m' =>
    simp only [Prog.stream, SDecoded.ok.injEq] at h ⊢
    refine ⟨⟨h.1, h.2.1, ?_⟩, fun _ => hc⟩
    have := congrArg List.length h.2.2
    rw [List.length_append] at this
    exact List.length_eq_zero_iff.mp (by omega)
  | fail m' => simp [Prog.stream] at h
  | timeout => simp [Prog.stream] at h
  | op o m' k ih =>
    simp only [Prog.stream] at h ⊢
    split at h
    · cases h
    · rw [if_neg ‹_›]
      cases ho : o.stream (s ++ q) with
      | ok a s1 =>
        rw [ho] at h
        dsimp only at h
        obtain ⟨s2, e2⟩ := Prog.stream_suffix h
        subst e2
        obtain ⟨h1, h2⟩ := ih a (hc a) h
        have hex : o.exact = true ∨ s2 ≠ [] := by
          by_cases hs2 : s2 = []
          · have := h2 hs2
            rw [this]; exact .inl rfl
          · exact .inr hs2
        rw [o.stream_shrink ho hex]
        refine ⟨h1, fun hs => ?_⟩
        subst hs
        -- the operation consumed nothing, and so did the rest
        have hl := (o.stream_suffix ho).length_le
        rw [List.nil_append, List.length_append] at hl
        have hs2 : s2 = [] := List.length_eq_zero_iff.mp (by omega)
        have := h2 hs2
        subst this
        have he := Op.stream_eats _ ho
        simp only [Op.eats, List.nil_append, List.length_append] at he
        omega
      | err => rw [ho] at h; cases h
      | bad => rw [ho] at h; cases h

theorem Prog.Closes.last {σ : Type} {prog : Prog σ} {t : Punct} {b : Prop} {r r' : Bool} {s s' : List UInt8} {m : σ} (hc : prog.Closes t b) (h : prog.stream r s = .ok m r' s') :
    (b ∧ s = s') ∨ ∃ p c, s = p ++ c :: s' ∧ symbolTable c = t.type := by
  induction prog generalizing r s b with
  | done m' =>
    simp only [Prog.stream, SDecoded.ok.injEq] at h
    exact .inl ⟨hc, h.2.2⟩
  | fail m' => simp [Prog.stream] at h
  | timeout => simp [Prog.stream] at h
  | op o m' k ih =>
    simp only [Prog.stream] at h
    split at h
    · cases h
    · cases ho : o.stream s with
      | ok a s1 =>
        rw [ho] at h
        right
        rcases ih a (hc a) h with ⟨h1, h2⟩ | ⟨p, c, h1, h2⟩
        · subst h1; subst h2
          cases s with
          | nil => simp [Op.stream] at ho
          | cons c s =>
            simp only [Op.stream] at ho
            split at ho
            · rename_i hc
              injection ho with _ ho
              exact ⟨[], c, by rw [ho]; rfl, hc⟩
            · cases ho
        · obtain ⟨u, hu⟩ := o.stream_suffix ho
          exact ⟨u ++ p, c, by rw [← hu, h1]; simp, h2⟩
      | err => rw [ho] at h; cases h
      | bad => rw [ho] at h; cases h

/-- A decoder with enough fuel: its outcome on a document. -/
structure Settles {σ : Type} (d : Nat → Prog σ) (data : Str) (out : SDecoded σ) : Prop where
  now : (d (2 * data.length + 1)).stream false data = out
  later : ∀ fuel, 2 * data.length + 1 ≤ fuel → (d fuel).stream false data = out
  noBad : out ≠ .bad
  noTimeout : out ≠ .timeout

/-- What `decoder_returns` asks of a decoder. -/
structure Decodes {σ : Type} (d : Nat → Prog σ) : Prop where
  safe : ∀ fuel, (d fuel).Safe false
  ends : ∀ n fuel, 2 * n < fuel → (d fuel).Ends n 1
  le : ∀ fuel fuel', fuel ≤ fuel' → (d fuel).Le (d fuel')
  closes : ∀ fuel, (d fuel).Closes .arrayEnd False

theorem Decodes.settles {σ : Type} {d : Nat → Prog σ} (h : Decodes d) (data : Str) : Settles d data ((d (2 * data.length + 1)).stream false data) := by
  have ht := (h.ends data.length _ (Nat.lt_succ_self _) false data (Nat.le_refl _)).1
  exact ⟨rfl, fun fuel hf => (h.le _ _ hf).stream _ _ ht, (h.safe _).stream data (by simp), ht⟩

theorem Decodes.settles_of {σ : Type} {d : Nat → Prog σ} (h : Decodes d) {data : Str} {fuel : Nat} {out : SDecoded σ} (ho : (d fuel).stream false data = out) (ht : out ≠ .timeout) :
    Settles d data out := by
  have hs := h.settles data
  have h1 := hs.later (max fuel (2 * data.length + 1)) (Nat.le_max_right _ _)
  rw [(h.le fuel _ (Nat.le_max_left _ _)).stream _ _ (by rw [ho]; exact ht), ho] at h1
  rw [h1]
  exact hs

/-- A decoder that succeeds on a document needs the bytes that it consumes: they are enough, whatever follows them, and it fails if the last of them are missing. -/
theorem Decodes.needs {σ : Type} {d : Nat → Prog σ} (h : Decodes d) {p q : Str} {m : σ} {b : Bool} (hs : Settles d (p ++ q) (.ok m b q)) :
    (∀ q', Settles d (p ++ q') (.ok m b q')) ∧ ∀ x y, p = x ++ y → y ≠ [] → ∃ m', Settles d x (.err m') := by
  have h1 := ((h.closes _).shrink hs.now).1
  refine ⟨fun q' => h.settles_of (Prog.stream_extend h1 q') (by simp), ?_⟩
  intro x y hxy hy
  have hx := h.settles x
  cases hout : (d (2 * x.length + 1)).stream false x with
  | ok m' b' s' =>
    exfalso
    have h2 := Prog.stream_extend (hx.later (max (2 * x.length + 1) (2 * (p ++ q).length + 1)) (Nat.le_max_left _ _) |>.trans hout) y
    have h3 := ((h.closes _).shrink (hs.later (max (2 * x.length + 1) (2 * (p ++ q).length + 1)) (Nat.le_max_right _ _))).1
    rw [← hxy, h3] at h2
    simp only [SDecoded.ok.injEq] at h2
    have := h2.2.2
    simp [hy] at this
  | err m' => exact ⟨m', hout ▸ hx⟩
  | bad => exact absurd hout hx.noBad
  | timeout => exact absurd hout hx.noTimeout

theorem Decodes.splits {σ : Type} {d : Nat → Prog σ} (h : Decodes d) {data s : Str} {m : σ} {b : Bool} (hs : Settles d data (.ok m b s)) :
    ∃ p, data = p ++ c!"]" :: s := by
  rcases (h.closes _).last hs.now with ⟨h1, _⟩ | ⟨p, c, h1, h2⟩
  · cases h1
  · have key : ∀ c : UInt8, symbolTable c = Punct.arrayEnd.type → c = c!"]" := byte_forall (by decide +kernel)
    exact ⟨p, by rw [← key c h2]; exact h1⟩

theorem fitsFrom_append {size : Nat} {st : Spec.LexState} {x y : Str} (h : Spec.FitsFrom size st (x ++ y)) : Spec.FitsFrom size st x := by
  induction x generalizing st with
  | nil => trivial
  | cons c x ih => exact ⟨h.1, ih h.2⟩

theorem decodesV2 (newCap : Nat → Nat → Nat) : Decodes fun fuel => decoderSliceSpanV2 newCap fuel { cells := [], len := 0 } where
  safe fuel := decoderSliceSpanV2_safe newCap fuel _ _
  ends n _ hf := decoderSliceSpanV2_ends newCap hf _ n (Nat.le_refl _)
  le _ _ hf := decoderSliceSpanV2_le newCap hf _
  closes fuel := closes_slice newCap fuel _ _ _

theorem decodesV1 (newCap : Nat → Nat → Nat) (pool : List SpanV1) : Decodes fun fuel => decoderSliceSpanV1 newCap fuel { cells := pool, len := 0 } where
  safe fuel := decoderSliceSpanV1_safe newCap fuel _ _
  ends n _ hf := decoderSliceSpanV1_ends newCap hf _ n (Nat.le_refl _)
  le _ _ hf := decoderSliceSpanV1_le newCap hf _
  closes fuel := closes_slice newCap fuel _ _ _

/-- The outcome of a request of version 2. -/
def outcomeV2 : SDecoded (GoSlice SpanV2) → Parsed
  | .ok m _ _ => .spans (m.elems.map SpanV2.toSpan)
  | .err _ => .err
  | .bad => .panic
  | .timeout => .timeout

theorem outcomeV2_returns {newCap : Nat → Nat → Nat} {size : Nat} (h0 : 0 < size) {data : Str} (hfit : Spec.TokensFit size data) {out : SDecoded (GoSlice SpanV2)}
    (hs : Settles (fun fuel => decoderSliceSpanV2 newCap fuel { cells := [], len := 0 }) data out) (r : Reader) (buf : List UInt8) (hr : r.data = data) (hb : size ≤ buf.length) :
    Returns (fun fuel => parseJsonV2 newCap fuel r buf) (outcomeV2 out) := by
  have hd := decodesV2 newCap
  obtain ⟨out', h1, h2, e, h3⟩ := decoder_returns h0 _ hd.safe hd.ends hd.le hfit
  have e' : out' = out := e.trans hs.now
  subst e'
  refine ⟨2 * data.length + (Parser.newWithReader r buf).work + 1, fun fuel hf => ?_⟩
  have h4 := h3 (Parser.newWithReader r buf) (newWithReader_ok r buf) hb (by rw [newWithReader_rest, hr]) fuel (by omega)
  cases out' with
  | ok m ready s =>
    obtain ⟨p', e, _⟩ := h4
    simp only [parseJsonV2, e, outcomeV2]
  | err m =>
    obtain ⟨p', e⟩ := h4
    simp only [parseJsonV2, e, outcomeV2]
  | bad => exact absurd rfl h1
  | timeout => exact absurd rfl h2

/-- The outcome of a request of version 1, and the memory that goes back to the pool. -/
def outcomeV1 (pool : List SpanV1) : SDecoded (GoSlice SpanV1) → Parsed × List SpanV1
  | .ok m _ _ => (.spans (m.elems.map SpanV1.toSpan), m.cells.take pool.length)
  | .err m => (.err, m.cells.take pool.length)
  | .bad => (.panic, pool)
  | .timeout => (.timeout, pool)

theorem outcomeV1_returns {newCap : Nat → Nat → Nat} {pool : List SpanV1} {size : Nat} (h0 : 0 < size) {data : Str} (hfit : Spec.TokensFit size data)
    {out : SDecoded (GoSlice SpanV1)} (hs : Settles (fun fuel => decoderSliceSpanV1 newCap fuel { cells := pool, len := 0 }) data out) (r : Reader) (buf : List UInt8)
    (hr : r.data = data) (hb : size ≤ buf.length) : Returns (fun fuel => parseJsonV1 newCap fuel r buf pool) (outcomeV1 pool out) := by
  have hd := decodesV1 newCap pool
  obtain ⟨out', h1, h2, e, h3⟩ := decoder_returns h0 _ hd.safe hd.ends hd.le hfit
  have e' : out' = out := e.trans hs.now
  subst e'
  refine ⟨2 * data.length + (Parser.newWithReader r buf).work + 1, fun fuel hf => ?_⟩
  have h4 := h3 (Parser.newWithReader r buf) (newWithReader_ok r buf) hb (by rw [newWithReader_rest, hr]) fuel (by omega)
  cases out' with
  | ok m ready s =>
    obtain ⟨p', e, _⟩ := h4
    simp only [parseJsonV1, e, outcomeV1]
  | err m =>
    obtain ⟨p', e⟩ := h4
    simp only [parseJsonV1, e, outcomeV1]
  | bad => exact absurd rfl h1
  | timeout => exact absurd rfl h2

end Verif
