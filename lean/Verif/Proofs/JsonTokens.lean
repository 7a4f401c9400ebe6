import Verif.Proofs.Scan
import Verif.Proofs.Decoder
import Verif.Spec.Tokens

/-!
# Scanning of JSON texts with the same tokens
-/

namespace Verif

open Spec

/-- The texts begin with the same token, and have the same tokens. -/
inductive SameStart : Str → Str → Prop
  | same (s : Str) : SameStart s s
  | mark {c : UInt8} {s s' : Str} : c ∈ b!"[]{}:," → SameJson s s' → SameStart (c :: s) (c :: s')
  | string {t s s' : Str} : LiteralText t → SameJson s s' → SameStart (c!"\"" :: (t ++ c!"\"" :: s)) (c!"\"" :: (t ++ c!"\"" :: s'))
  | number {t s s' : Str} : JsonNumber t → StopsNumber s → StopsNumber s' → SameJson s s' → SameStart (t ++ s) (t ++ s')
  | word {s s' : Str} (w : JsonWord) : SameJson s s' → SameStart (w.text ++ s) (w.text ++ s')

theorem Spec.SameJson.symm {s s' : Str} (h : SameJson s s') : SameJson s' s := by
  induction h with
  | same s => exact .same s
  | space h1 h2 _ ih => exact .space h2 h1 ih
  | mark h1 _ ih => exact .mark h1 ih
  | string h1 _ ih => exact .string h1 ih
  | number h1 h2 h3 _ ih => exact .number h1 h3 h2 ih
  | word w _ ih => exact .word w ih

theorem numStop_of_stops {s : Str} (h : StopsNumber s) : NumStop s := by
  intro c hc
  cases s with
  | nil => cases hc
  | cons d s =>
    injection hc with hc
    subst hc
    have key : ∀ c : UInt8, c ∉ b!"0123456789.eE" → ¬ (c!"0" ≤ c ∧ c ≤ c!"9") ∧ c ≠ c!"." ∧ c ≠ c!"e" ∧ c ≠ c!"E" := byte_forall (by decide +kernel)
    exact key d (h d s rfl)

/-- The first bytes are equal; what follows punctuation has the same tokens. -/
theorem SameStart.first {s s' : Str} (h : SameStart s s') :
    s = s' ∨ ∃ c t t', s = c :: t ∧ s' = c :: t' ∧ goSpace c = false ∧ (c ∈ b!"[]{}:," → SameJson t t') := by
  cases h with
  | same => exact .inl rfl
  | mark h1 h2 =>
    have key : ∀ c : UInt8, c ∈ b!"[]{}:," → goSpace c = false := byte_forall (by decide +kernel)
    exact .inr ⟨_, _, _, rfl, rfl, key _ h1, fun _ => h2⟩
  | string => exact .inr ⟨_, _, _, rfl, rfl, by decide, fun hc => absurd hc (by decide)⟩
  | number h1 =>
    obtain ⟨c, t, rfl, hc⟩ := number_head h1
    have key : ∀ c : UInt8, (c = c!"-" ∨ (c!"0" ≤ c ∧ c ≤ c!"9")) → goSpace c = false ∧ c ∉ b!"[]{}:," := byte_forall (by decide +kernel)
    exact .inr ⟨c, _, _, rfl, rfl, (key c hc).1, fun h => absurd h (key c hc).2⟩
  | word w =>
    cases w <;> exact .inr ⟨_, _, _, rfl, rfl, by decide, fun hc => absurd hc (by decide)⟩

theorem SameStart.skip {s s' : Str} (h : SameStart s s') :
    (skipSpace s = [] ∧ skipSpace s' = []) ∨ (skipSpace s ≠ [] ∧ skipSpace s' ≠ [] ∧ SameStart (skipSpace s) (skipSpace s')) := by
  rcases h.first with rfl | ⟨c, t, t', rfl, rfl, hc, _⟩
  · by_cases he : skipSpace s = []
    · exact .inl ⟨he, he⟩
    · exact .inr ⟨he, he, .same _⟩
  · unfold skipSpace
    rw [List.dropWhile_cons, List.dropWhile_cons, if_neg (by simp [hc]), if_neg (by simp [hc])]
    exact .inr ⟨by simp, by simp, h⟩

theorem Spec.SameJson.skip {s s' : Str} (h : SameJson s s') :
    (skipSpace s = [] ∧ skipSpace s' = []) ∨ (skipSpace s ≠ [] ∧ skipSpace s' ≠ [] ∧ SameStart (skipSpace s) (skipSpace s')) := by
  induction h with
  | same s => exact (SameStart.same s).skip
  | space h1 h2 _ ih => rw [skipSpace_blank h1, skipSpace_blank h2]; exact ih
  | mark h1 h2 _ => exact (SameStart.mark h1 h2).skip
  | string h1 h2 _ => exact (SameStart.string h1 h2).skip
  | number h1 h2 h3 h4 _ => exact (SameStart.number h1 h2 h3 h4).skip
  | word w h2 _ => exact (SameStart.word w h2).skip

/-- After white space: the end of both texts, or the same first byte. -/
theorem Spec.SameJson.next {s s' : Str} (h : SameJson s s') :
    skipSpace s = skipSpace s' ∨ ∃ c t t', skipSpace s = c :: t ∧ skipSpace s' = c :: t' ∧ SameStart (c :: t) (c :: t') ∧ (c ∈ b!"[]{}:," → SameJson t t') := by
  rcases h.skip with ⟨h1, h2⟩ | ⟨_, _, h3⟩
  · exact .inl (h1.trans h2.symm)
  · rcases h3.first with h4 | ⟨c, t, t', e, e', _, h5⟩
    · exact .inl h4
    · exact .inr ⟨c, t, t', e, e', by rw [← e, ← e']; exact h3, h5⟩

/-- What was scanned is the same, up to the white space that follows. -/
def SameScan {α : Type} : Option (α × Str) → Option (α × Str) → Prop
  | some (v, s), some (v', s') => v = v' ∧ SameJson s s'
  | none, none => True
  | _, _ => False

theorem SameScan.refl {α : Type} (r : Option (α × Str)) : SameScan r r := by
  rcases r with _ | ⟨v, s⟩
  · trivial
  · exact ⟨rfl, .same s⟩

theorem SameScan.map {α β : Type} {r r' : Option (α × Str)} (h : SameScan r r') (f : α → β) : SameScan (r.map fun x => (f x.1, x.2)) (r'.map fun x => (f x.1, x.2)) := by
  rcases r with _ | ⟨v, s⟩ <;> rcases r' with _ | ⟨v', s'⟩
  · trivial
  · exact h.elim
  · exact h.elim
  · obtain ⟨rfl, h⟩ := h
    exact ⟨rfl, h⟩

theorem scanNumber_other {c : UInt8} {s : Str} (h : c ∈ b!"]}:,") : scanNumber (c :: s) = none := by
  have key : ∀ c : UInt8, c ∈ b!"]}:," → c ≠ c!"-" ∧ c ≠ c!"0" ∧ ¬ (c!"1" ≤ c ∧ c ≤ c!"9") := byte_forall (by decide +kernel)
  obtain ⟨h1, h2, h3⟩ := key c h
  simp only [scanNumber, if_neg h1, scanInteger, if_neg h2, if_neg h3]
  rfl

theorem scan_same (fuel : Nat) :
    (∀ depth s s', SameStart s s' → SameScan (scanValue fuel depth s) (scanValue fuel depth s')) ∧
    (∀ depth s s', SameStart s s' → SameScan (scanElements fuel depth s) (scanElements fuel depth s')) ∧
    (∀ depth s s', SameStart s s' → SameScan (scanMembers fuel depth s) (scanMembers fuel depth s')) := by
  induction fuel with
  | zero =>
    refine ⟨fun _ _ _ _ => ?_, fun _ _ _ _ => ?_, fun _ _ _ _ => ?_⟩
    · rw [scanValue.eq_def, scanValue.eq_def]; trivial
    · rw [scanElements.eq_def, scanElements.eq_def]; trivial
    · rw [scanMembers.eq_def, scanMembers.eq_def]; trivial
  | succ fuel ih =>
    obtain ⟨ih1, ih2, ih3⟩ := ih
    refine ⟨fun depth s s' h => ?_, fun depth s s' h => ?_, fun depth s s' h => ?_⟩
    · cases h with
      | same => exact .refl _
      | mark h1 h2 =>
        rename_i c s s'
        rw [scanValue.eq_def, scanValue.eq_def]
        dsimp only
        by_cases hb : c = c!"{"
        · rw [if_pos hb, if_pos hb]
          split
          · trivial
          · rcases h2.next with e | ⟨d, t, t', e, e', h3, h4⟩
            · rw [e]; exact .refl _
            · rw [e, e']
              dsimp only
              split
              · rename_i hd
                subst hd
                exact ⟨rfl, h4 (by decide)⟩
              · exact (ih3 _ _ _ h3).map Raw.object
        · rw [if_neg hb, if_neg hb]
          by_cases ha : c = c!"["
          · rw [if_pos ha, if_pos ha]
            split
            · trivial
            · rcases h2.next with e | ⟨d, t, t', e, e', h3, h4⟩
              · rw [e]; exact .refl _
              · rw [e, e']
                dsimp only
                split
                · rename_i hd
                  subst hd
                  exact ⟨rfl, h4 (by decide)⟩
                · exact (ih2 _ _ _ h3).map Raw.array
          · rw [if_neg ha, if_neg ha]
            have key : ∀ c : UInt8, c ∈ b!"[]{}:," → c ≠ c!"{" → c ≠ c!"[" → c ∈ b!"]}:," ∧ c ≠ c!"\"" ∧ c ≠ c!"t" ∧ c ≠ c!"f" ∧ c ≠ c!"n" := byte_forall (by decide +kernel)
            obtain ⟨g1, g2, g3, g4, g5⟩ := key c h1 hb ha
            rw [if_neg g2, if_neg g3, if_neg g4, if_neg g5, if_neg g2, if_neg g3, if_neg g4, if_neg g5, scanNumber_other g1, scanNumber_other g1]
            trivial
      | string h1 h2 =>
        rw [scanValue.eq_def, scanValue.eq_def]
        dsimp only
        rw [if_neg (by decide), if_neg (by decide), if_pos rfl, if_neg (by decide), if_neg (by decide), if_pos rfl, scanLit_text h1, scanLit_text h1]
        exact ⟨rfl, h2⟩
      | number h1 h2 h3 h4 =>
        have n1 := scanNumber_json h1 (numStop_of_stops h2)
        have n2 := scanNumber_json h1 (numStop_of_stops h3)
        obtain ⟨c, t, rfl, hc⟩ := number_head h1
        have key : ∀ c : UInt8, (c = c!"-" ∨ (c!"0" ≤ c ∧ c ≤ c!"9")) → c ≠ c!"{" ∧ c ≠ c!"[" ∧ c ≠ c!"\"" ∧ c ≠ c!"t" ∧ c ≠ c!"f" ∧ c ≠ c!"n" := byte_forall (by decide +kernel)
        obtain ⟨g1, g2, g3, g4, g5, g6⟩ := key c hc
        rw [List.cons_append] at n1 n2 ⊢
        rw [scanValue.eq_def, scanValue.eq_def]
        dsimp only
        rw [List.cons_append]
        dsimp only
        rw [if_neg g1, if_neg g2, if_neg g3, if_neg g4, if_neg g5, if_neg g6, if_neg g1, if_neg g2, if_neg g3, if_neg g4, if_neg g5, if_neg g6, n1, n2]
        exact ⟨rfl, h4⟩
      | word w h2 =>
        have e : ∀ s : Str, scanValue (fuel + 1) depth (w.text ++ s) = some (.literal w.text, s) := by
          intro s
          rw [← scanWord_eq w.text s, scanValue.eq_def]
          cases w <;> rfl
        rw [e, e]
        exact ⟨rfl, h2⟩
    · rw [scanElements.eq_def, scanElements.eq_def]
      dsimp only
      have hv := ih1 depth s s' h
      generalize scanValue fuel depth s = x at hv
      generalize scanValue fuel depth s' = x' at hv
      rcases x with _ | ⟨v, t⟩ <;> rcases x' with _ | ⟨v', t'⟩
      · trivial
      · exact hv.elim
      · exact hv.elim
      · obtain ⟨rfl, hv⟩ := hv
        dsimp only
        rcases hv.next with e | ⟨d, u, u', e, e', h3, h4⟩
        · rw [e]; exact .refl _
        · rw [e, e']
          dsimp only
          split
          · rename_i hd
            subst hd
            exact ⟨rfl, h4 (by decide)⟩
          · split
            · rename_i hd
              subst hd
              rcases (h4 (by decide)).skip with ⟨e1, e2⟩ | ⟨_, _, hs⟩
              · rw [e1, e2]; exact .refl _
              · exact (ih2 _ _ _ hs).map (v :: ·)
            · trivial
    · rw [scanMembers.eq_def, scanMembers.eq_def]
      dsimp only
      rcases h.first with rfl | ⟨c, t, t', rfl, rfl, _, _⟩
      · exact .refl _
      · dsimp only
        split
        · trivial
        · rename_i hq
          have hq : c = c!"\"" := by simpa using hq
          subst hq
          have hlit : t = t' ∨ ∃ lit u u', t = lit ++ c!"\"" :: u ∧ t' = lit ++ c!"\"" :: u' ∧ LiteralText lit ∧ SameJson u u' := by
            generalize ea : c!"\"" :: t = a at h
            generalize eb : c!"\"" :: t' = b at h
            cases h with
            | same => exact .inl (by rw [← eb] at ea; injection ea)
            | mark h1 h2 => injection ea with e1 _; subst e1; exact absurd h1 (by decide)
            | string h1 h2 =>
              injection ea with _ e1
              injection eb with _ e2
              exact .inr ⟨_, _, _, e1, e2, h1, h2⟩
            | number h1 =>
              obtain ⟨c, t, rfl, hc⟩ := number_head h1
              injection ea with e1 _
              subst e1
              exact absurd hc (by decide)
            | word w => cases w <;> · injection ea with e1 _; exact absurd e1 (by decide)
          rcases hlit with rfl | ⟨lit, u, u', rfl, rfl, hl, hu⟩
          · exact .refl _
          · rw [scanLit_text hl, scanLit_text hl]
            dsimp only
            rcases hu.next with e | ⟨d, u1, u1', e, e', h3, h4⟩
            · rw [e]; exact .refl _
            · rw [e, e']
              dsimp only
              split
              · trivial
              · rename_i hd
                have hd : d = c!":" := by simpa using hd
                subst hd
                have hv : SameScan (scanValue fuel depth (skipSpace u1)) (scanValue fuel depth (skipSpace u1')) := by
                  rcases (h4 (by decide)).skip with ⟨e1, e2⟩ | ⟨_, _, hs⟩
                  · rw [e1, e2]; exact .refl _
                  · exact ih1 _ _ _ hs
                generalize scanValue fuel depth (skipSpace u1) = x at hv
                generalize scanValue fuel depth (skipSpace u1') = x' at hv
                rcases x with _ | ⟨v, t⟩ <;> rcases x' with _ | ⟨v', t'⟩
                · trivial
                · exact hv.elim
                · exact hv.elim
                · obtain ⟨rfl, hv⟩ := hv
                  dsimp only
                  rcases hv.next with e | ⟨d, u, u', e, e', h3, h4⟩
                  · rw [e]; exact .refl _
                  · rw [e, e']
                    dsimp only
                    split
                    · rename_i hd
                      subst hd
                      exact ⟨rfl, h4 (by decide)⟩
                    · split
                      · rename_i hd
                        subst hd
                        rcases (h4 (by decide)).skip with ⟨e1, e2⟩ | ⟨_, _, hs⟩
                        · rw [e1, e2]; exact .refl _
                        · exact (ih3 _ _ _ hs).map (_ :: ·)
                      · trivial

/-- An object, or `null`, is scanned with the fuel that there is for the bytes, if with any. -/
theorem scanValue_any_fuel {floatFails : Str → Bool} {F F' : Nat} {data q : Str} {v : Raw} {old d : JsonSlice JaegerDataCell} (h : scanValue F maxNestingDepth (skipSpace data) = some (v, q))
    (hs : storeObject floatFails v old = some d) (hF : data.length ≤ F') : scanValue F' maxNestingDepth (skipSpace data) = some (v, q) := by
  obtain ⟨t, e1, g1, g2, ⟨c, t', g3, g4⟩, g5⟩ := (scan_sound _).1 _ _ _ _ h
  have hnum : ¬ Numeric t := by
    rintro ⟨c1, t1, e, hc⟩
    subst e
    have key : ∀ c : UInt8, c = c!"-" ∨ (c!"0" ≤ c ∧ c ≤ c!"9") → c ≠ c!"{" ∧ c ≠ c!"n" := byte_forall (by decide +kernel)
    have := key c1 hc
    rcases storeObject_shape g2 hs with hs | hs
    · simp at hs; exact this.1 hs
    · injection hs with hs; exact this.2 hs
  have hl : t.length ≤ data.length := by
    have h1 : (skipSpace data).length ≤ data.length := length_dropWhile_le _ _
    rw [e1, List.length_append] at h1
    omega
  rw [e1]
  exact g5 F' q (by omega) (fun hn => absurd hn hnum)

theorem goDecodeJaeger_same_of {floatFails : Str → Bool} {data data' : Str} {l : List JaegerData} (h : SameJson data data') (hd : goDecodeJaeger floatFails data = some l) :
    goDecodeJaeger floatFails data' = some l := by
  simp only [goDecodeJaeger, Option.bind_eq_bind, Option.bind_eq_some_iff] at hd ⊢
  obtain ⟨⟨v, q⟩, h1, d, h2, h3⟩ := hd
  have h4 := scanValue_any_fuel (F' := max data.length data'.length) h1 h2 (Nat.le_max_left _ _)
  have h5 : SameScan (scanValue (max data.length data'.length) maxNestingDepth (skipSpace data)) (scanValue (max data.length data'.length) maxNestingDepth (skipSpace data')) := by
    rcases h.skip with ⟨e1, e2⟩ | ⟨_, _, hs⟩
    · rw [e1, e2]; exact .refl _
    · exact (scan_same _).1 _ _ _ hs
  rw [h4] at h5
  generalize e : scanValue (max data.length data'.length) maxNestingDepth (skipSpace data') = x at h5
  rcases x with _ | ⟨v', q'⟩
  · exact h5.elim
  · obtain ⟨rfl, _⟩ := h5
    exact ⟨⟨v, q'⟩, scanValue_any_fuel e h2 (by omega), d, h2, h3⟩

theorem goDecodeJaeger_same {floatFails : Str → Bool} {data data' : Str} (h : SameJson data data') : goDecodeJaeger floatFails data = goDecodeJaeger floatFails data' := by
  cases hd : goDecodeJaeger floatFails data with
  | some l => exact (goDecodeJaeger_same_of h hd).symm
  | none =>
    cases hd' : goDecodeJaeger floatFails data' with
    | none => rfl
    | some l => rw [goDecodeJaeger_same_of h.symm hd'] at hd; cases hd

end Verif
