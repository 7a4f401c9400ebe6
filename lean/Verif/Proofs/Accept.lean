import Verif.Proofs.Loose
import Verif.Proofs.Document
import Verif.Spec.Accept

/-!
# What the parser of versions 1 and 2 accepts, exactly
-/

namespace Verif

open Spec

theorem sep_loose {w : Str} (h : LooseSpace w) : Sep w := by
  have key : ∀ c : UInt8, c ∈ [0x09, 0x0A, 0x0B, 0x0C, 0x0D, 0x20, c!":", c!",", 0x85, 0xA0] → isCharSpace c = true := byte_forall (by decide +kernel)
  exact fun c hc => key c (h c hc)

/-! ## Operations -/

theorem scan_literal {lit : Str} (h : LooseLiteral lit) (s : Str) : scanString false (lit ++ c!"\"" :: s) = some (lit, s) := by
  induction h with
  | nil => simp [scanString]
  | char h1 h2 _ ih => simp only [List.cons_append, scanString, if_neg h1, if_neg h2, ih, Option.map_some]
  | escape h1 _ ih => simp [scanString, ih]
  | unicode h1 _ ih =>
    obtain ⟨k1, k2, k3, k4⟩ := goHex_of_hex4 h1
    have key : ∀ c : UInt8, goHex c = true → c ≠ c!"\\" ∧ c ≠ c!"\"" := byte_forall (by decide +kernel)
    simp [scanString, ih, key _ k1, key _ k2, key _ k3, key _ k4]

theorem exact_readString {s s' : Str} {a : Str} : Op.stream .readString s = .ok a s' ↔ ∃ lit, s = c!"\"" :: (lit ++ c!"\"" :: s') ∧ Unquotes lit a := by
  constructor
  · intro h
    cases s with
    | nil => simp [Op.stream] at h
    | cons c s =>
      simp only [Op.stream] at h
      split at h
      · cases h
      · rename_i hc
        have hc : c = c!"\"" := by simpa using hc
        subst hc
        cases hs : scanString false s with
        | none => rw [hs] at h; simp at h
        | some r =>
          obtain ⟨body, t⟩ := r
          rw [hs] at h
          simp only at h
          cases hu : unescape body with
          | none => rw [hu] at h; simp at h
          | some v =>
            rw [hu] at h
            simp only [SRun.ok.injEq] at h
            obtain ⟨e1, e2⟩ := scanString_sound _ (Nat.le_refl _) hs hu
            exact ⟨body, by rw [e1, h.2], e2, by rw [hu, h.1]⟩
  · rintro ⟨lit, rfl, hl, hv⟩
    simp only [Op.stream, ne_eq, not_true_eq_false, if_false, scan_literal hl, hv]

theorem numberChar_iff (c : UInt8) : numberChar c = true ↔ c ∈ b!"-0123456789.e" := by
  revert c
  exact byte_forall (by decide +kernel)

theorem exact_readNumber {s s' : Str} {a : Str} : Op.stream .readNumber s = .ok a s' ↔ s = a ++ s' ∧ LooseNumber a ∧ NumberStops s' := by
  constructor
  · intro h
    cases s with
    | nil => simp [Op.stream] at h
    | cons c s =>
      simp only [Op.stream] at h
      split at h
      · cases h
      · rename_i hc
        split at h
        · cases h
        · rename_i s1 hne
          injection h with h1 h
          subst h1
          refine ⟨?_, ⟨c, _, rfl, ?_, ?_⟩, ?_⟩
          · rw [List.cons_append, ← h, List.takeWhile_append_dropWhile]
          · have key : ∀ c : UInt8, isCharDigit c = true → c ∈ b!"-0123456789" := byte_forall (by decide +kernel)
            exact key c (by simpa using hc)
          · intro d hd
            exact (numberChar_iff d).mp (takeWhile_sound d hd)
          · cases hs : s.dropWhile numberChar with
            | nil => exact absurd hs hne
            | cons d u =>
              rw [← h, hs]
              refine ⟨d, u, rfl, fun hd => ?_⟩
              have := List.head_dropWhile_not (p := numberChar) (l := s) (by rw [hs]; simp)
              simp only [hs, List.head_cons] at this
              rw [(numberChar_iff d).mpr hd] at this
              cases this
  · rintro ⟨rfl, ⟨c, t, rfl, hc, ht⟩, d, u, rfl, hd⟩
    have key : ∀ c : UInt8, c ∈ b!"-0123456789" → isCharDigit c = true := byte_forall (by decide +kernel)
    obtain ⟨h1, h2⟩ := takeWhile_number (t := t) (s := d :: u) (fun x hx => (numberChar_iff x).mpr (ht x hx)) (delim_cons (by
      cases hn : numberChar d with
      | false => rfl
      | true => exact absurd ((numberChar_iff d).mp hn) hd) _)
    simp only [List.cons_append, Op.stream, key c hc, Bool.not_true, Bool.false_eq_true, if_false, h1, h2]

theorem exact_readWord {w : Word} {s s' : Str} {a : Str} : Op.stream (.readWord w) s = .ok a s' ↔ s = a ++ s' ∧ a.length = w.length ∧ a.head? = some w.first := by
  have hpos : 0 < w.length := by cases w <;> decide
  constructor
  · intro h
    cases s with
    | nil => simp [Op.stream] at h
    | cons c s =>
      simp only [Op.stream] at h
      split at h
      · cases h
      · rename_i hl
        split at h
        · cases h
        · rename_i hc
          have hc : c = w.first := by simpa using hc
          injection h with h1 h
          have hlen : ((c :: s).take w.length).length = w.length := by rw [List.length_take]; omega
          subst h1
          refine ⟨by rw [← h, List.take_append_drop], hlen, ?_⟩
          rw [← hc]
          cases hw : w.length with
          | zero => omega
          | succ n => rfl
  · rintro ⟨rfl, hl, hh⟩
    cases a with
    | nil => simp at hh
    | cons c a =>
      simp only [List.head?_cons, Option.some.injEq] at hh
      simp only [List.cons_append, Op.stream]
      rw [if_neg (by rw [← List.cons_append, List.length_append]; omega), if_neg (by simpa using hh)]
      rw [← hl, ← List.cons_append, List.take_left, List.drop_left]

/-! ## Values -/

/-- The type of the first token. -/
def Spec.Loose.type : Loose → JType
  | .word t => if t.head? = some c!"n" then .null else .boolean
  | .number _ => .number
  | .string _ => .string
  | .array _ => .arrayBegin
  | .object _ => .objectBegin

theorem begins_type {v : Loose} {t s : Str} (h : Begins v t s) : ∃ c t', t = c :: t' ∧ symbolTable c = v.type ∧ isCharSpace c = false ∧ symbolTable c ≠ .error := by
  have pack : ∀ {c : UInt8} {ty : JType}, symbolTable c = ty → isCharSpace c = false → ty ≠ .error → symbolTable c = ty ∧ isCharSpace c = false ∧ symbolTable c ≠ .error :=
    fun h1 h2 h3 => ⟨h1, h2, by rw [h1]; exact h3⟩
  cases h with
  | word h =>
    rename_i t
    rcases h with ⟨hl, hh | hh⟩ | ⟨hl, hh⟩ <;> cases t with
    | nil => simp at hh
    | cons c t =>
      simp only [List.head?_cons, Option.some.injEq] at hh
      subst hh
      exact ⟨_, _, rfl, pack (by simp [Loose.type]; decide) (by decide) (by simp [Loose.type])⟩
  | number h =>
    obtain ⟨c, t', rfl, hc, _⟩ := h
    have key : ∀ c : UInt8, c ∈ b!"-0123456789" → symbolTable c = .number ∧ isCharSpace c = false := byte_forall (by decide +kernel)
    exact ⟨c, _, rfl, pack (key c hc).1 (key c hc).2 (by simp [Loose.type])⟩
  | string h => exact ⟨_, _, rfl, pack (by simp only [Loose.type]; decide) (by decide) (by simp [Loose.type])⟩
  | array h => exact ⟨_, _, rfl, pack (by simp only [Loose.type]; decide) (by decide) (by simp [Loose.type])⟩
  | object h => exact ⟨_, _, rfl, pack (by simp only [Loose.type]; decide) (by decide) (by simp [Loose.type])⟩

section
variable {σ : Type}

theorem stream_op {o : Op} {m : σ} {k : o.Res → Prog σ} {a : o.Res} {s s' : Str} (h : o.stream s = .ok a s') : (Prog.op o m k).stream true s = (k a).stream o.readyAfter s' := by
  simp only [Prog.stream, Bool.not_true, Bool.and_false, Bool.false_eq_true, if_false, h]

theorem stream_next {v : Loose} {t s w : Str} (h : Begins v t s) (hw : LooseSpace w) (r : Bool) {m : σ} {k : JType → Prog σ} :
    (nextType m k).stream r (w ++ t) = (k v.type).stream true t := by
  obtain ⟨c, t', rfl, h1, h2, h3⟩ := begins_type h
  rw [stream_nextType (sep_loose hw) h2 h3, h1]

theorem stream_string {lit v s w : Str} (h : Unquotes lit v) (hw : LooseSpace w) (r : Bool) {m : σ} {k : Str → Prog σ} :
    (readString m k).stream r (w ++ c!"\"" :: (lit ++ c!"\"" :: s)) = (k v).stream false s := by
  unfold readString
  rw [stream_skipWhitespace (sep_loose hw) (by decide), stream_op (exact_readString.mpr ⟨lit, rfl, h⟩)]
  rfl

theorem readString_exact {m : σ} {k : Str → Prog σ} {r r' : Bool} {s s' : Str} {v : σ} (h : (readString m k).stream r s = .ok v r' s') :
    ∃ w lit u r1 a, s = w ++ c!"\"" :: (lit ++ c!"\"" :: u) ∧ LooseSpace w ∧ Unquotes lit a ∧ (k a).stream r1 u = .ok v r' s' := by
  obtain ⟨_, s1, h1, g1⟩ := stream_op_ok h
  obtain ⟨w, rfl, hw⟩ := loose_skipWhitespace h1
  obtain ⟨a, s2, h2, g2⟩ := stream_op_ok g1
  obtain ⟨lit, rfl, hl⟩ := exact_readString.mp h2
  exact ⟨w, lit, s2, _, a, rfl, hw, hl, g2⟩

theorem stream_boolean {t s : Str} (h : LooseWord t) (hn : t.head? ≠ some c!"n") {m : σ} {k : Str → Prog σ} :
    (readBoolean m k).stream true (t ++ s) = (k t).stream false s := by
  unfold readBoolean
  cases t with
  | nil => rcases h with ⟨h, _⟩ | ⟨h, _⟩ <;> simp at h
  | cons c t =>
    rw [stream_op (o := .current) (a := c) (s' := c :: t ++ s) rfl]
    simp only [List.head?_cons, ne_eq, Option.some.injEq] at hn
    rcases h with ⟨hl, hh | hh⟩ | ⟨hl, hh⟩
    · exact absurd (by simpa using hh) hn
    · have hh : c = c!"t" := by simpa using hh
      rw [if_pos hh]
      exact stream_op (exact_readWord.mpr ⟨rfl, hl, by rw [hh]; rfl⟩)
    · have hh : c = c!"f" := by simpa using hh
      rw [if_neg (by rw [hh]; decide)]
      exact stream_op (exact_readWord.mpr ⟨rfl, hl, by rw [hh]; rfl⟩)

theorem boolean_exact {m : σ} {k : Str → Prog σ} {r r' : Bool} {c : UInt8} {u s' : Str} {v : σ} (hc : symbolTable c = .boolean)
    (h : (readBoolean m k).stream r (c :: u) = .ok v r' s') :
    ∃ t u' r1, c :: u = t ++ u' ∧ LooseWord t ∧ t.head? ≠ some c!"n" ∧ (k t).stream r1 u' = .ok v r' s' := by
  obtain ⟨a, s1, h1, g1⟩ := stream_op_ok h
  obtain ⟨rfl, t', e⟩ := loose_current h1
  injection e with e _
  subst e
  split at g1
  · obtain ⟨t, s2, h2, g2⟩ := stream_op_ok g1
    obtain ⟨e1, e2, e3⟩ := exact_readWord.mp h2
    exact ⟨t, s2, _, e1, .inl ⟨e2, .inr e3⟩, by rw [e3]; decide, g2⟩
  · obtain ⟨t, s2, h2, g2⟩ := stream_op_ok g1
    obtain ⟨e1, e2, e3⟩ := exact_readWord.mp h2
    exact ⟨t, s2, _, e1, .inr ⟨e2, e3⟩, by rw [e3]; decide, g2⟩

theorem stream_null {t s : Str} (h : LooseWord t) (hn : t.head? = some c!"n") {m : σ} {k : Str → Prog σ} :
    (readNull m k).stream true (t ++ s) = (k t).stream false s := by
  rcases h with ⟨hl, hh | hh⟩ | ⟨hl, hh⟩
  · exact stream_op (exact_readWord.mpr ⟨rfl, hl, hh⟩)
  · rw [hn] at hh; exact absurd hh (by decide)
  · rw [hn] at hh; exact absurd hh (by decide)

theorem null_exact {m : σ} {k : Str → Prog σ} {r r' : Bool} {s s' : Str} {v : σ}
    (h : (readNull m k).stream r s = .ok v r' s') :
    ∃ t u' r1, s = t ++ u' ∧ LooseWord t ∧ t.head? = some c!"n" ∧ (k t).stream r1 u' = .ok v r' s' := by
  obtain ⟨t, s2, h2, g2⟩ := stream_op_ok h
  obtain ⟨e1, e2, e3⟩ := exact_readWord.mp h2
  exact ⟨t, s2, _, e1, .inl ⟨e2, .inl e3⟩, e3, g2⟩

theorem numberStops_of {t s : Str} (h : LooseNumber t) (hs : NumberStops s) : Op.stream .readNumber (t ++ s) = .ok t s := exact_readNumber.mpr ⟨rfl, h, hs⟩

end

/-! ## Skipping -/

theorem type_ne_end (v : Loose) : v.type ≠ .arrayEnd ∧ v.type ≠ .objectEnd := by
  cases v with
  | word t => simp only [Loose.type]; split <;> simp
  | _ => simp [Loose.type]

/-- Skipping the value, if nothing but it is there. -/
def SkipsOver (v : Loose) (t s : Str) : Prop := ∃ N, ∀ fuel, N ≤ fuel → (skip fuel v.type).stream true t = .ok () false s

theorem skip_elements_nil {w s : Str} (hw : LooseSpace w) (fuel : Nat) (r : Bool) {w0 : Str} (hw0 : LooseSpace w0) :
    (skipArrayLoop (fuel + 1)).stream r (w0 ++ (w ++ c!"]" :: s)) = .ok () false s := by
  unfold skipArrayLoop
  rw [← List.append_assoc, stream_nextType (sep_loose (looseSpace_append hw0 hw)) (by decide) (by decide), if_pos (by decide), stream_consumeOp (by decide)]
  rfl

theorem skip_members_nil {w s : Str} (hw : LooseSpace w) (fuel : Nat) (r : Bool) {w0 : Str} (hw0 : LooseSpace w0) :
    (skipObjectLoop (fuel + 1)).stream r (w0 ++ (w ++ c!"}" :: s)) = .ok () false s := by
  unfold skipObjectLoop
  rw [← List.append_assoc, stream_nextType (sep_loose (looseSpace_append hw0 hw)) (by decide) (by decide), if_pos (by decide), stream_consumeOp (by decide)]
  rfl

mutual

theorem skip_begins : ∀ {v : Loose} {t s : Str}, Begins v t s → SkipsOver v t s
  | _, _, _, .word (t := t) (s := s) h => by
    refine ⟨1, fun fuel hf => ?_⟩
    obtain ⟨fuel, rfl⟩ : ∃ n, fuel = n + 1 := ⟨fuel - 1, by omega⟩
    unfold skip
    by_cases hn : t.head? = some c!"n"
    · simp only [Loose.type, if_pos hn]
      rw [stream_null h hn]
      rfl
    · simp only [Loose.type, if_neg hn]
      rw [stream_boolean h hn]
      rfl
  | _, _, _, .number h hs => by
    refine ⟨1, fun fuel hf => ?_⟩
    obtain ⟨fuel, rfl⟩ : ∃ n, fuel = n + 1 := ⟨fuel - 1, by omega⟩
    unfold skip
    simp only [Loose.type]
    rw [stream_op (numberStops_of h hs)]
    rfl
  | _, _, _, .string h => by
    refine ⟨1, fun fuel hf => ?_⟩
    obtain ⟨fuel, rfl⟩ : ∃ n, fuel = n + 1 := ⟨fuel - 1, by omega⟩
    unfold skip
    simp only [Loose.type]
    rw [stream_op (exact_readString.mpr ⟨_, rfl, h⟩)]
    rfl
  | _, _, _, .array h => by
    obtain ⟨N, hN⟩ := skip_beginsElements h
    refine ⟨N + 1, fun fuel hf => ?_⟩
    obtain ⟨fuel, rfl⟩ : ∃ n, fuel = n + 1 := ⟨fuel - 1, by omega⟩
    unfold skip
    simp only [Loose.type]
    rw [stream_consumeOp (by decide)]
    exact hN fuel (by omega) false
  | _, _, _, .object h => by
    obtain ⟨N, hN⟩ := skip_beginsMembers h
    refine ⟨N + 1, fun fuel hf => ?_⟩
    obtain ⟨fuel, rfl⟩ : ∃ n, fuel = n + 1 := ⟨fuel - 1, by omega⟩
    unfold skip
    simp only [Loose.type]
    rw [stream_consumeOp (by decide)]
    exact hN fuel (by omega) false

theorem skip_beginsElements : ∀ {l : List Loose} {u s : Str}, BeginsElements l u s → ∃ N, ∀ fuel, N ≤ fuel → ∀ r, (skipArrayLoop fuel).stream r u = .ok () false s
  | _, _, _, .nil hw => by
    refine ⟨1, fun fuel hf r => ?_⟩
    obtain ⟨fuel, rfl⟩ : ∃ n, fuel = n + 1 := ⟨fuel - 1, by omega⟩
    exact skip_elements_nil hw fuel r looseSpace_nil
  | _, _, _, .cons (v := v) hw hv hl => by
    obtain ⟨N, hN⟩ := skip_begins hv
    obtain ⟨M, hM⟩ := skip_beginsElements hl
    refine ⟨N + M + 1, fun fuel hf r => ?_⟩
    obtain ⟨fuel, rfl⟩ : ∃ n, fuel = n + 1 := ⟨fuel - 1, by omega⟩
    unfold skipArrayLoop
    rw [stream_next hv hw, if_neg (type_ne_end v).1, Prog.stream_andThen, hN fuel (by omega)]
    exact hM fuel (by omega) false

theorem skip_beginsMembers : ∀ {ms : List (Str × Loose)} {u s : Str}, BeginsMembers ms u s → ∃ N, ∀ fuel, N ≤ fuel → ∀ r, (skipObjectLoop fuel).stream r u = .ok () false s
  | _, _, _, .nil hw => by
    refine ⟨1, fun fuel hf r => ?_⟩
    obtain ⟨fuel, rfl⟩ : ∃ n, fuel = n + 1 := ⟨fuel - 1, by omega⟩
    exact skip_members_nil hw fuel r looseSpace_nil
  | _, _, _, .cons (v := v) hw hk hw' hv hl => by
    obtain ⟨N, hN⟩ := skip_begins hv
    obtain ⟨M, hM⟩ := skip_beginsMembers hl
    refine ⟨N + M + 1, fun fuel hf r => ?_⟩
    obtain ⟨fuel, rfl⟩ : ∃ n, fuel = n + 1 := ⟨fuel - 1, by omega⟩
    unfold skipObjectLoop
    rw [stream_nextType (sep_loose hw) (by decide) (by decide), if_neg (by decide), stream_op (exact_readString.mpr ⟨_, rfl, hk⟩),
      Prog.stream_andThen, stream_next hv hw', hN fuel (by omega)]
    exact hM fuel (by omega) false

end

theorem Spec.BeginsElements.space {l : List Loose} {w u s : Str} (hw : LooseSpace w) (h : BeginsElements l u s) : BeginsElements l (w ++ u) s := by
  cases h with
  | nil h => rw [← List.append_assoc]; exact .nil (looseSpace_append hw h)
  | cons h1 h2 h3 => rw [← List.append_assoc]; exact .cons (looseSpace_append hw h1) h2 h3

theorem Spec.BeginsMembers.space {ms : List (Str × Loose)} {w u s : Str} (hw : LooseSpace w) (h : BeginsMembers ms u s) : BeginsMembers ms (w ++ u) s := by
  cases h with
  | nil h => rw [← List.append_assoc]; exact .nil (looseSpace_append hw h)
  | cons h1 h2 h3 h4 h5 => rw [← List.append_assoc]; exact .cons (looseSpace_append hw h1) h2 h3 h4 h5

theorem skip_sound (fuel : Nat) :
    (∀ {c : UInt8} {u s : Str} {r r' : Bool} {x : Unit}, (skip fuel (symbolTable c)).stream r (c :: u) = .ok x r' s → ∃ v, Begins v (c :: u) s) ∧
    (∀ {u s : Str} {r r' : Bool} {x : Unit}, (skipArrayLoop fuel).stream r u = .ok x r' s → ∃ l, BeginsElements l u s) ∧
    (∀ {u s : Str} {r r' : Bool} {x : Unit}, (skipObjectLoop fuel).stream r u = .ok x r' s → ∃ ms, BeginsMembers ms u s) := by
  induction fuel with
  | zero =>
    refine ⟨?_, ?_, ?_⟩
    · intro _ _ _ _ _ _ h; cases h
    · intro _ _ _ _ _ h; cases h
    · intro _ _ _ _ _ h; cases h
  | succ fuel ih =>
    obtain ⟨ih1, ih2, ih3⟩ := ih
    refine ⟨?_, ?_, ?_⟩
    · intro c u s r r' x h
      unfold skip at h
      split at h
      · obtain ⟨a, s1, h1, g1⟩ := stream_op_ok h
        injection g1 with _ _ g1
        subst g1
        obtain ⟨lit, e, hl⟩ := exact_readString.mp h1
        rw [e]
        exact ⟨_, .string hl⟩
      · obtain ⟨a, s1, h1, g1⟩ := stream_op_ok h
        injection g1 with _ _ g1
        subst g1
        obtain ⟨e, h2, h3⟩ := exact_readNumber.mp h1
        rw [e]
        exact ⟨_, .number h2 h3⟩
      · obtain ⟨t, u', r1, e, ht, _, g1⟩ := boolean_exact ‹_› h
        injection g1 with _ _ g1
        subst g1
        rw [e]
        exact ⟨_, .word ht⟩
      · obtain ⟨t, u', r1, e, ht, _, g1⟩ := null_exact h
        injection g1 with _ _ g1
        subst g1
        rw [e]
        exact ⟨_, .word ht⟩
      · obtain ⟨a, s1, h1, g1⟩ := stream_op_ok h
        obtain ⟨c', e, hc⟩ := loose_consume h1
        have := punct_char hc
        dsimp only at this
        subst this
        rw [e]
        obtain ⟨ms, hm⟩ := ih3 g1
        exact ⟨_, .object hm⟩
      · obtain ⟨a, s1, h1, g1⟩ := stream_op_ok h
        obtain ⟨c', e, hc⟩ := loose_consume h1
        have := punct_char hc
        dsimp only at this
        subst this
        rw [e]
        obtain ⟨ms, hm⟩ := ih2 g1
        exact ⟨_, .array hm⟩
      · cases h
    · intro u s r r' x h
      unfold skipArrayLoop at h
      obtain ⟨w, c, t, r1, rfl, hw, _, g⟩ := nextType_ok h
      split at g
      · obtain ⟨a, s1, h1, g1⟩ := stream_op_ok g
        injection g1 with _ _ g1
        subst g1
        obtain ⟨c', e, hc⟩ := loose_consume h1
        have := punct_char hc
        dsimp only at this
        subst this
        rw [e]
        exact ⟨[], .nil hw⟩
      · obtain ⟨m, r2, s1, h1, h2⟩ := stream_andThen_ok g
        obtain ⟨v, hv⟩ := ih1 h1
        obtain ⟨l, hl⟩ := ih2 h2
        exact ⟨v :: l, .cons hw hv hl⟩
    · intro u s r r' x h
      unfold skipObjectLoop at h
      obtain ⟨w, c, t, r1, rfl, hw, _, g⟩ := nextType_ok h
      split at g
      · obtain ⟨a, s1, h1, g1⟩ := stream_op_ok g
        injection g1 with _ _ g1
        subst g1
        obtain ⟨c', e, hc⟩ := loose_consume h1
        have := punct_char hc
        dsimp only at this
        subst this
        rw [e]
        exact ⟨[], .nil hw⟩
      · obtain ⟨a, s1, h1, g1⟩ := stream_op_ok g
        obtain ⟨lit, e, hl⟩ := exact_readString.mp h1
        obtain ⟨m, r2, s2, h2, h3⟩ := stream_andThen_ok g1
        obtain ⟨w', c', t', r3, rfl, hw', _, g3⟩ := nextType_ok h2
        obtain ⟨v, hv⟩ := ih1 g3
        obtain ⟨ms, hms⟩ := ih3 h3
        rw [e]
        exact ⟨(a, v) :: ms, .cons hw hl hw' hv hms⟩

/-! ## Decoders -/

/-- A decoder accepts exactly the texts of values that are accepted by the interpretation, which describes what it does to the target; the target is
described by `abs`. -/
structure Exact {σ τ : Type} (abs : σ → τ) (d : Nat → ValueDecoder σ) (I : Loose → τ → Option τ) : Prop where
  complete : ∀ {v : Loose} {t s : Str} {m : σ} {a : τ}, Begins v t s → I v (abs m) = some a →
    ∃ m' N, abs m' = a ∧ ∀ fuel, N ≤ fuel → ∀ w r, LooseSpace w → (d fuel m).stream r (w ++ t) = .ok m' false s
  sound : ∀ {fuel : Nat} {m m' : σ} {r r' : Bool} {u s : Str}, (d fuel m).stream r u = .ok m' r' s →
    ∃ w v t, u = w ++ t ∧ LooseSpace w ∧ Begins v t s ∧ I v (abs m) = some (abs m')

theorem skipValue_begins {v : Loose} {t s : Str} (h : Begins v t s) :
    ∃ N, ∀ fuel, N ≤ fuel → ∀ w r, LooseSpace w → (skipValue fuel).stream r (w ++ t) = .ok () false s := by
  obtain ⟨N, hN⟩ := skip_begins h
  refine ⟨N, fun fuel hf w r hw => ?_⟩
  unfold skipValue
  rw [stream_next h hw]
  exact hN fuel hf

theorem skipValue_sound {fuel : Nat} {r r' : Bool} {u s : Str} {x : Unit} (h : (skipValue fuel).stream r u = .ok x r' s) :
    ∃ w v t, u = w ++ t ∧ LooseSpace w ∧ Begins v t s := by
  obtain ⟨w, c, t, r1, rfl, hw, _, g⟩ := nextType_ok h
  obtain ⟨v, hv⟩ := (skip_sound fuel).1 g
  exact ⟨w, v, _, rfl, hw, hv⟩

theorem exact_string : Exact id (fun _ => stringValueDecoder) (fun v _ => v.toStr) where
  complete := by
    intro v t s m a h hI
    cases h with
    | string h =>
      simp only [Loose.toStr, Option.some.injEq] at hI
      subst hI
      refine ⟨_, 0, rfl, fun fuel _ w r hw => ?_⟩
      unfold stringValueDecoder
      rw [stream_string h hw]
      rfl
    | _ => simp [Loose.toStr] at hI
  sound := by
    intro fuel m m' r r' u s h
    obtain ⟨w, lit, u', r1, a, rfl, hw, hl, g⟩ := readString_exact h
    injection g with g1 _ g2
    subst g1 g2
    exact ⟨w, _, _, rfl, hw, .string hl, rfl⟩

theorem exact_scalar : Exact id (fun _ => anyValueDecoder) (fun v _ => v.toScalar) where
  complete := by
    intro v t s m a h hI
    have h' := h
    cases h with
    | string h =>
      simp only [Loose.toScalar, Option.some.injEq] at hI
      subst hI
      refine ⟨_, 0, rfl, fun fuel _ w r hw => ?_⟩
      unfold anyValueDecoder readLiteral
      rw [stream_next h' hw]
      simp only [Loose.type]
      rw [stream_op (exact_readString.mpr ⟨_, rfl, h⟩)]
      rfl
    | number h hs =>
      simp only [Loose.toScalar, Option.some.injEq] at hI
      subst hI
      refine ⟨_, 0, rfl, fun fuel _ w r hw => ?_⟩
      unfold anyValueDecoder readLiteral
      rw [stream_next h' hw]
      simp only [Loose.type]
      rw [stream_op (numberStops_of h hs)]
      rfl
    | word h =>
      simp only [Loose.toScalar, Option.some.injEq] at hI
      subst hI
      rename_i t
      refine ⟨_, 0, rfl, fun fuel _ w r hw => ?_⟩
      unfold anyValueDecoder readLiteral
      rw [stream_next h' hw]
      by_cases hn : t.head? = some c!"n"
      · simp only [Loose.type, if_pos hn]
        rw [stream_null h hn]
        rfl
      · simp only [Loose.type, if_neg hn]
        rw [stream_boolean h hn]
        rfl
    | _ => simp [Loose.toScalar] at hI
  sound := by
    intro fuel m m' r r' u s h
    unfold anyValueDecoder readLiteral at h
    obtain ⟨w, c, t, r1, rfl, hw, _, g⟩ := nextType_ok h
    split at g
    · obtain ⟨a, s1, h1, g1⟩ := stream_op_ok g
      injection g1 with g0 _ g1
      subst g0 g1
      obtain ⟨lit, e, hl⟩ := exact_readString.mp h1
      rw [e]
      exact ⟨w, _, _, rfl, hw, .string hl, rfl⟩
    · obtain ⟨a, s1, h1, g1⟩ := stream_op_ok g
      injection g1 with g0 _ g1
      subst g0 g1
      obtain ⟨e, h2, h3⟩ := exact_readNumber.mp h1
      rw [e]
      exact ⟨w, _, _, rfl, hw, .number h2 h3, rfl⟩
    · obtain ⟨t, u', r1, e, ht, _, g1⟩ := boolean_exact ‹_› g
      injection g1 with g0 _ g1
      subst g0 g1
      rw [e]
      exact ⟨w, _, _, rfl, hw, .word ht, rfl⟩
    · obtain ⟨t, u', r1, e, ht, _, g1⟩ := null_exact g
      injection g1 with g0 _ g1
      subst g0 g1
      rw [e]
      exact ⟨w, _, _, rfl, hw, .word ht, rfl⟩
    · cases g

theorem parseId_toId (v : Str) : parseId v = (Loose.string v).toId := by
  simp only [Loose.toId]
  by_cases h : v.length ≤ 16 ∧ ∀ c ∈ v, IsHexDigit c
  · rw [if_pos h]
    obtain ⟨id, hid⟩ := Option.isSome_iff_exists.mp ((C02_parseId_accepts_iff v).mpr h)
    have hval := C02_parseId_value _ _ hid
    rw [hid]
    congr 1
    refine int64_ext ?_
    rw [UInt64.toUInt64_toInt64, ← hval, UInt64.ofNat_toNat]
  · rw [if_neg h]
    cases hp : parseId v with
    | none => rfl
    | some id => exact absurd ((C02_parseId_accepts_iff v).mp (by rw [hp]; rfl)) h

theorem exact_id : Exact id idValueDecoder (fun v _ => v.toId) where
  complete := by
    intro v t s m a h hI
    have h' := h
    cases h with
    | string h =>
      rw [← parseId_toId] at hI
      refine ⟨a, 0, rfl, fun fuel _ w r hw => ?_⟩
      unfold idValueDecoder
      rw [stream_next h' hw, if_neg (by simp [Loose.type])]
      have := stream_string (s := s) h looseSpace_nil true (m := m) (k := fun tok => match parseId tok with | none => Prog.fail m | some id => .done id)
      rw [List.nil_append] at this
      exact this.trans (by rw [hI]; rfl)
    | word h =>
      rename_i t
      simp only [Loose.toId] at hI
      split at hI
      · rename_i hn
        injection hI with hI
        obtain ⟨N, hN⟩ := skipValue_begins h'
        refine ⟨0, N, hI, fun fuel hf w r hw => ?_⟩
        unfold idValueDecoder
        have := hN fuel hf [] true looseSpace_nil
        rw [List.nil_append] at this
        rw [stream_next h' hw, if_pos (by simp [Loose.type, hn]), Prog.stream_andThen, this]
        rfl
      · cases hI
    | _ => simp [Loose.toId] at hI
  sound := by
    intro fuel m m' r r' u s h
    obtain ⟨w, c, t, r1, rfl, hw, _, g⟩ := nextType_ok h
    split at g
    · rename_i hc
      obtain ⟨x, r2, s1, h1, h2⟩ := stream_andThen_ok g
      injection h2 with e1 _ e2
      subst e1 e2
      obtain ⟨w', v, t', e, hw', hv⟩ := skipValue_sound h1
      have key : ∀ c : UInt8, symbolTable c = .null → c = c!"n" := byte_forall (by decide +kernel)
      have hcn := key c hc
      subst hcn
      cases w' with
      | cons x w' =>
        injection e with e _
        subst e
        have := hw' (c!"n") (by simp)
        exact absurd this (by decide)
      | nil =>
        rw [List.nil_append] at e
        subst e
        refine ⟨w, v, _, rfl, hw, hv, ?_⟩
        obtain ⟨c, t', e, hty, _⟩ := begins_type hv
        injection e with e _
        subst e
        rw [hc] at hty
        cases v with
        | word t =>
          simp only [Loose.type] at hty
          simp only [Loose.toId]
          split at hty
          · rw [if_pos ‹_›]; rfl
          · cases hty
        | _ => cases hty
    · obtain ⟨w', lit, u', r2, a, e, hw', hl, g⟩ := readString_exact g
      rw [e, ← List.append_assoc]
      cases hp : parseId a with
      | none => rw [hp] at g; cases g
      | some x =>
        rw [hp] at g
        injection g with g1 _ g2
        subst g1 g2
        exact ⟨w ++ w', _, _, rfl, looseSpace_append hw hw', .string hl, by rw [← parseId_toId]; exact hp⟩

theorem decimal_toMicros (t : Str) : decimal t = (Loose.number t).toMicros := by
  simp only [Loose.toMicros]
  by_cases h : ∀ c ∈ t, c!"0" ≤ c ∧ c ≤ c!"9"
  · rw [if_pos h, decimal_digits h]
  · rw [if_neg h]
    obtain ⟨c, hc⟩ := Classical.not_forall.mp h
    obtain ⟨hc, hd⟩ := Classical.not_imp.mp hc
    exact decimal_none hc hd

theorem exact_micros : Exact id (fun _ => uint64ValueDecoder) (fun v _ => v.toMicros) where
  complete := by
    intro v t s m a h hI
    have h' := h
    cases h with
    | number h hs =>
      rw [← decimal_toMicros] at hI
      refine ⟨a, 0, rfl, fun fuel _ w r hw => ?_⟩
      unfold uint64ValueDecoder readNumber
      obtain ⟨c, t', e, _, hc, _⟩ := begins_type h'
      rw [e, stream_skipWhitespace (sep_loose hw) hc, ← e, stream_op (numberStops_of h hs), hI]
      rfl
    | _ => simp [Loose.toMicros] at hI
  sound := by
    intro fuel m m' r r' u s h
    obtain ⟨_, s1, h1, g1⟩ := stream_op_ok h
    obtain ⟨w, rfl, hw⟩ := loose_skipWhitespace h1
    obtain ⟨a, s2, h2, g2⟩ := stream_op_ok g1
    obtain ⟨e, h3, h4⟩ := exact_readNumber.mp h2
    subst e
    cases hp : decimal a with
    | none => rw [hp] at g2; cases g2
    | some x =>
      rw [hp] at g2
      injection g2 with g1 _ g2
      subst g1 g2
      exact ⟨w, _, _, rfl, hw, .number h3 h4, by rw [← decimal_toMicros]; exact hp⟩

/-- A decoder for a field. -/
theorem Exact.field {σ τ σ' τ' : Type} {abs : σ → τ} {Abs : σ' → τ'} {d : Nat → ValueDecoder σ} {I : Loose → τ → Option τ} (h : Exact abs d I)
    {get : σ' → σ} {set : σ → σ' → σ'} {get' : τ' → τ} {set' : τ → τ' → τ'} (hg : ∀ m, abs (get m) = get' (Abs m))
    (hs : ∀ x m, Abs (set x m) = set' (abs x) (Abs m)) :
    Exact Abs (fun fuel => (d fuel).field get set) (fun v a => (I v (get' a)).map fun x => set' x a) where
  complete := by
    intro v t s m a hv hI
    obtain ⟨x, hx, e⟩ := Option.map_eq_some_iff.mp hI
    rw [← hg] at hx
    obtain ⟨m', N, e', hN⟩ := h.complete hv hx
    refine ⟨set m' m, N, by rw [hs, e', e], fun fuel hf w r hw => ?_⟩
    unfold ValueDecoder.field
    rw [Prog.stream_andThen, hN fuel hf w r hw]
    rfl
  sound := by
    intro fuel m m' r r' u s hst
    obtain ⟨x, r1, s1, h1, h2⟩ := stream_andThen_ok hst
    injection h2 with e1 _ e2
    subst e1 e2
    obtain ⟨w, v, t, e, hw, hv, hI⟩ := h.sound h1
    refine ⟨w, v, t, e, hw, hv, ?_⟩
    rw [← hg, hI, hs]
    rfl

/-- Something is done to the target first. -/
theorem Exact.before {σ τ : Type} {abs : σ → τ} {d : Nat → ValueDecoder σ} {I : Loose → τ → Option τ} (h : Exact abs d I) {pre : σ → σ} {pre' : τ → τ}
    (hp : ∀ m, abs (pre m) = pre' (abs m)) : Exact abs (fun fuel m => d fuel (pre m)) (fun v a => I v (pre' a)) where
  complete := fun hv hI => h.complete hv (by rw [hp]; exact hI)
  sound := fun hst => by
    obtain ⟨w, v, t, e, hw, hv, hI⟩ := h.sound hst
    exact ⟨w, v, t, e, hw, hv, by rw [← hp]; exact hI⟩

/-! ## Structs -/

section
variable {σ τ : Type} {abs : σ → τ} {fields : Nat → List (Str × ValueDecoder σ)} {f : Str → Loose → τ → Option τ}

/-- What the decoders of the fields do, by name. -/
def ExactFields (abs : σ → τ) (fields : Nat → List (Str × ValueDecoder σ)) (f : Str → Loose → τ → Option τ) : Prop :=
  ∀ name, (∃ d, (∀ fuel, (fields fuel).lookup name = some (d fuel)) ∧ Exact abs d (f name)) ∨
    ((∀ fuel, (fields fuel).lookup name = none) ∧ ∀ v a, f name v a = some a)

theorem structLoop_complete (hf : ExactFields abs fields f) {ms : List (Str × Loose)} {u s : Str} (h : BeginsMembers ms u s) (m : σ) (a : τ)
    (hI : ms.foldlM (fun a m => f m.1 m.2 a) (abs m) = some a) :
    ∃ m' N, abs m' = a ∧ ∀ fuel F, N ≤ fuel → N ≤ F → ∀ r, (structLoop F (fields F) fuel m).stream r u = .ok m' false s := by
  induction ms generalizing u m with
  | nil =>
    cases h with
    | nil hw =>
      injection hI with hI
      refine ⟨m, 1, hI, fun fuel F h1 h2 r => ?_⟩
      obtain ⟨fuel, rfl⟩ : ∃ n, fuel = n + 1 := ⟨fuel - 1, by omega⟩
      unfold structLoop
      rw [stream_nextType (sep_loose hw) (by decide) (by decide), if_pos (by decide)]
      exact stream_consume (σ := σ) Sep.nil (c := c!"}") (by decide) (t := .objectEnd) (by decide) s true (m := m) (k := .done m)
  | cons x ms ih =>
    cases h with
    | cons hw hk hw' hv hl =>
      rename_i w lit name w' t u v
      simp only [List.foldlM_cons, Option.bind_eq_bind] at hI
      obtain ⟨a1, h1, h2⟩ := Option.bind_eq_some_iff.mp hI
      have hread : ∀ r F fuel, (structLoop F (fields F) (fuel + 1) m).stream r (w ++ c!"\"" :: (lit ++ c!"\"" :: (w' ++ t))) =
          (match (fields F).lookup name with
            | some decoder => (decoder m).andThen id fun m => structLoop F (fields F) fuel m
            | none => (skipValue F).andThen (fun _ => m) fun _ => structLoop F (fields F) fuel m).stream false (w' ++ t) := by
        intro r F fuel
        rw [structLoop, stream_nextType (sep_loose hw) (by decide) (by decide), if_neg (by decide)]
        have := stream_string (s := w' ++ t) hk looseSpace_nil true (m := m) (k := fun key => match (fields F).lookup key with
            | some decoder => (decoder m).andThen id fun m => structLoop F (fields F) fuel m
            | none => (skipValue F).andThen (fun _ => m) fun _ => structLoop F (fields F) fuel m)
        rw [List.nil_append] at this
        exact this
      rcases hf name with ⟨d, hd, hex⟩ | ⟨hd, hsame⟩
      · obtain ⟨m1, N, e1, hN⟩ := hex.complete hv h1
        rw [← e1] at h2
        obtain ⟨m2, M, e2, hM⟩ := ih hl m1 h2
        refine ⟨m2, N + M + 1, e2, fun fuel F h1 h2 r => ?_⟩
        obtain ⟨fuel, rfl⟩ : ∃ n, fuel = n + 1 := ⟨fuel - 1, by omega⟩
        rw [hread, hd]
        simp only
        rw [Prog.stream_andThen, hN F (by omega) w' false hw']
        exact hM fuel F (by omega) (by omega) false
      · rw [hsame] at h1
        injection h1 with h1
        rw [← h1] at h2
        obtain ⟨N, hN⟩ := skipValue_begins hv
        obtain ⟨m2, M, e2, hM⟩ := ih hl m h2
        refine ⟨m2, N + M + 1, e2, fun fuel F h1 h2 r => ?_⟩
        obtain ⟨fuel, rfl⟩ : ∃ n, fuel = n + 1 := ⟨fuel - 1, by omega⟩
        rw [hread, hd]
        simp only
        rw [Prog.stream_andThen, hN F (by omega) w' false hw']
        exact hM fuel F (by omega) (by omega) false

theorem structLoop_sound (hf : ExactFields abs fields f) (F fuel : Nat) {m m' : σ} {r r' : Bool} {u s : Str}
    (h : (structLoop F (fields F) fuel m).stream r u = .ok m' r' s) :
    ∃ ms, BeginsMembers ms u s ∧ ms.foldlM (fun a m => f m.1 m.2 a) (abs m) = some (abs m') := by
  induction fuel generalizing m r u with
  | zero => cases h
  | succ fuel ih =>
    unfold structLoop at h
    obtain ⟨w, c, t, r1, rfl, hw, _, g⟩ := nextType_ok h
    split at g
    · obtain ⟨w', c', u', r2, e, hw', hc, g⟩ := consume_ok g
      injection g with g1 _ g2
      subst g1 g2
      have := punct_char hc
      dsimp only at this
      subst this
      rw [e, ← List.append_assoc]
      exact ⟨[], .nil (looseSpace_append hw hw'), rfl⟩
    · obtain ⟨w', lit, u', r2, name, e, hw', hl, g⟩ := readString_exact g
      rw [e, ← List.append_assoc]
      rcases hf name with ⟨d, hd, hex⟩ | ⟨hd, hsame⟩
      · rw [hd] at g
        simp only at g
        obtain ⟨m1, r3, s1, h1, h2⟩ := stream_andThen_ok g
        obtain ⟨w2, v, t2, e2, hw2, hv, hI⟩ := hex.sound h1
        obtain ⟨ms, hms, hfold⟩ := ih h2
        subst e2
        refine ⟨(name, v) :: ms, .cons (looseSpace_append hw hw') hl hw2 hv hms, ?_⟩
        simp only [List.foldlM_cons, Option.bind_eq_bind, hI, Option.bind_some]
        exact hfold
      · rw [hd] at g
        simp only at g
        obtain ⟨m1, r3, s1, h1, h2⟩ := stream_andThen_ok g
        obtain ⟨w2, v, t2, e2, hw2, hv⟩ := skipValue_sound h1
        obtain ⟨ms, hms, hfold⟩ := ih h2
        subst e2
        refine ⟨(name, v) :: ms, .cons (looseSpace_append hw hw') hl hw2 hv hms, ?_⟩
        simp only [List.foldlM_cons, Option.bind_eq_bind, hsame, Option.bind_some]
        exact hfold

theorem exact_struct (hf : ExactFields abs fields f) : Exact abs (fun fuel => makeStructDecoder fuel (fields fuel)) (fun v a => v.members f a) where
  complete := by
    intro v t s m a hv hI
    cases hv with
    | object hv =>
      obtain ⟨m', N, e, hN⟩ := structLoop_complete hf hv m a hI
      refine ⟨m', N, e, fun fuel hfu w r hw => ?_⟩
      unfold makeStructDecoder
      rw [stream_consume (sep_loose hw) (by decide) (by decide)]
      exact hN fuel fuel hfu hfu false
    | _ => simp [Loose.members] at hI
  sound := by
    intro fuel m m' r r' u s h
    obtain ⟨w, c, u', r1, rfl, hw, hc, g⟩ := consume_ok h
    have := punct_char hc
    dsimp only at this
    subst this
    obtain ⟨ms, hms, hI⟩ := structLoop_sound hf fuel fuel g
    exact ⟨w, _, _, rfl, hw, .object hms, hI⟩

end

theorem ExactFields.nil {σ τ : Type} {abs : σ → τ} : ExactFields abs (fun _ => []) (fun _ _ a => some a) := fun _ => .inr ⟨fun _ => rfl, fun _ _ => rfl⟩

theorem ExactFields.cons {σ τ : Type} {abs : σ → τ} {key : Str} {d : Nat → ValueDecoder σ} {I : Loose → τ → Option τ} {fields : Nat → List (Str × ValueDecoder σ)}
    {f : Str → Loose → τ → Option τ} (h : Exact abs d I) (hf : ExactFields abs fields f) :
    ExactFields abs (fun fuel => (key, d fuel) :: fields fuel) (fun name v a => if name = key then I v a else f name v a) := by
  intro name
  by_cases hn : name = key
  · subst hn
    refine .inl ⟨d, fun fuel => by simp [List.lookup], ?_⟩
    simp only [if_true]
    exact h
  · have hb : (name == key) = false := by simpa using hn
    simp only [if_neg hn, List.lookup, hb]
    exact hf name

/-! ## Maps -/

/-- One more tag. -/
def tagsPush (result : Option TagMap) (p : Str × Str) : Option TagMap := some ((result.getD ∅).insert p.1 p.2)

theorem tagsPush_fold (pairs : List (Str × Str)) (t : TagMap) : pairs.foldl tagsPush (some t) = some (pairs.foldl (fun t p => t.insert p.1 p.2) t) := by
  induction pairs generalizing t with
  | nil => rfl
  | cons p pairs ih => exact ih _

theorem tagsPush_none (pairs : List (Str × Str)) : pairs.foldl tagsPush none = if pairs = [] then none else some (pairs.foldl (fun t p => t.insert p.1 p.2) ∅) := by
  cases pairs with
  | nil => rfl
  | cons p pairs =>
    rw [if_neg (by simp)]
    exact tagsPush_fold pairs _

theorem mapLoop_complete {ms : List (Str × Loose)} {u s : Str} (h : BeginsMembers ms u s) (m result : Option TagMap) (pairs : List (Str × Str))
    (hI : (ms.mapM fun (m : Str × Loose) => m.2.toStr.map fun x => (m.1, x)) = some pairs) :
    ∃ N, ∀ fuel, N ≤ fuel → ∀ r, (mapLoop stringValueDecoder stringValueDecoder m fuel result).stream r u = .ok (pairs.foldl tagsPush result) false s := by
  induction ms generalizing u result pairs with
  | nil =>
    cases h with
    | nil hw =>
      simp only [List.mapM_nil, Option.pure_def, Option.some.injEq] at hI
      subst hI
      refine ⟨1, fun fuel hf r => ?_⟩
      obtain ⟨fuel, rfl⟩ : ∃ n, fuel = n + 1 := ⟨fuel - 1, by omega⟩
      unfold mapLoop
      rw [stream_nextType (sep_loose hw) (by decide) (by decide), if_pos (by decide)]
      exact stream_consume Sep.nil (c := c!"}") (by decide) (t := .objectEnd) (by decide) s true
  | cons x ms ih =>
    cases h with
    | cons hw hk hw' hv hl =>
      rename_i w lit name w' t u v
      cases hv with
      | string hv =>
        rename_i lit2 val
        simp only [List.mapM_cons, Loose.toStr, Option.map_some, Option.bind_eq_bind, Option.bind_some, Option.pure_def] at hI
        obtain ⟨pairs', h1, h2⟩ := Option.bind_eq_some_iff.mp hI
        injection h2 with h2
        subst h2
        obtain ⟨N, hN⟩ := ih hl (tagsPush result (name, _)) pairs' h1
        refine ⟨N + 1, fun fuel hf r => ?_⟩
        obtain ⟨fuel, rfl⟩ : ∃ n, fuel = n + 1 := ⟨fuel - 1, by omega⟩
        unfold mapLoop
        rw [stream_nextType (sep_loose hw) (by decide) (by decide), if_neg (by decide), Prog.stream_andThen]
        have hkey : (stringValueDecoder []).stream true (c!"\"" :: (lit ++ c!"\"" :: (w' ++ c!"\"" :: (lit2 ++ c!"\"" :: u)))) =
            .ok name false (w' ++ c!"\"" :: (lit2 ++ c!"\"" :: u)) :=
          stream_string hk looseSpace_nil true
        rw [hkey]
        simp only
        rw [Prog.stream_andThen]
        have hval : (stringValueDecoder []).stream false (w' ++ c!"\"" :: (lit2 ++ c!"\"" :: u)) = .ok val false u := stream_string hv hw' false
        rw [hval]
        exact hN fuel (by omega) false
      | _ => simp [Loose.toStr] at hI

theorem mapLoop_sound (fuel : Nat) {m result m' : Option TagMap} {r r' : Bool} {u s : Str}
    (h : (mapLoop stringValueDecoder stringValueDecoder m fuel result).stream r u = .ok m' r' s) :
    ∃ ms pairs, BeginsMembers ms u s ∧ (ms.mapM fun (m : Str × Loose) => m.2.toStr.map fun x => (m.1, x)) = some pairs ∧ m' = pairs.foldl tagsPush result := by
  induction fuel generalizing result r u with
  | zero => cases h
  | succ fuel ih =>
    unfold mapLoop at h
    obtain ⟨w, c, t, r1, rfl, hw, _, g⟩ := nextType_ok h
    split at g
    · obtain ⟨w', c', u', r2, e, hw', hc, g⟩ := consume_ok g
      injection g with g1 _ g2
      subst g1 g2
      have := punct_char hc
      dsimp only at this
      subst this
      rw [e, ← List.append_assoc]
      exact ⟨[], [], .nil (looseSpace_append hw hw'), rfl, rfl⟩
    · obtain ⟨m1, r3, s1, h1, h2⟩ := stream_andThen_ok g
      obtain ⟨w1, lit, u1, r4, name, e, hw1, hl, g1⟩ := readString_exact h1
      injection g1 with g1 _ g2
      subst g1 g2
      obtain ⟨m2, r5, s2, h3, h4⟩ := stream_andThen_ok h2
      obtain ⟨w2, lit2, u2, r6, val, e2, hw2, hl2, g2⟩ := readString_exact h3
      injection g2 with g1 _ g2
      subst g1 g2
      obtain ⟨ms, pairs, hms, hp, hm⟩ := ih h4
      rw [e, ← List.append_assoc, e2]
      refine ⟨(name, .string val) :: ms, (name, val) :: pairs, .cons (looseSpace_append hw hw1) hl hw2 (.string hl2) hms, ?_, hm⟩
      rw [List.mapM_cons, hp]
      rfl

theorem exact_tags : Exact id (fun fuel => makeMapDecoder fuel stringValueDecoder stringValueDecoder) (fun v _ => v.toTags) where
  complete := by
    intro v t s m a hv hI
    cases hv with
    | object hv =>
      simp only [Loose.toTags] at hI
      obtain ⟨pairs, h1, h2⟩ := Option.map_eq_some_iff.mp hI
      obtain ⟨N, hN⟩ := mapLoop_complete hv m none pairs h1
      refine ⟨_, N, rfl, fun fuel hf w r hw => ?_⟩
      unfold makeMapDecoder
      rw [stream_consume (sep_loose hw) (by decide) (by decide), hN fuel hf false, tagsPush_none, h2]
    | _ => simp [Loose.toTags] at hI
  sound := by
    intro fuel m m' r r' u s h
    obtain ⟨w, c, u', r1, rfl, hw, hc, g⟩ := consume_ok h
    have := punct_char hc
    dsimp only at this
    subst this
    obtain ⟨ms, pairs, hms, hp, hm⟩ := mapLoop_sound fuel g
    refine ⟨w, _, _, rfl, hw, .object hms, ?_⟩
    simp only [Loose.toTags, hp, Option.map_some, hm, tagsPush_none]
    rfl

/-! ## Slices -/

/-- The cells of a slice; behind the array there are zero values. -/
def absSlice {σ τ : Type} (zero : σ) (abs : σ → τ) (s : GoSlice σ) : Cells τ := { cell := fun i => abs (s.cells.getD i zero), len := s.len }

/-- The state of a slice while it is decoded. -/
def Filling {σ : Type} (idx : Nat) (s : GoSlice σ) : Prop := (idx = 0 ∨ s.len = idx) ∧ idx ≤ s.cells.length

theorem filling_grow {σ : Type} {newCap : Nat → Nat → Nat} {zero : σ} {idx : Nat} {s : GoSlice σ} (h : Filling idx s) :
    (s.grow newCap zero (idx + 1)).len = idx + 1 ∧ idx + 1 ≤ (s.grow newCap zero (idx + 1)).cells.length ∧
    ∀ j, (s.grow newCap zero (idx + 1)).cells.getD j zero = s.cells.getD j zero := by
  unfold GoSlice.grow
  by_cases hc : idx + 1 ≤ s.cells.length
  · rw [if_pos hc]
    exact ⟨rfl, hc, fun _ => rfl⟩
  · rw [if_neg hc]
    obtain ⟨h1, h2⟩ := h
    have hlen : s.cells.length = idx := by omega
    have he : s.elems = s.cells := by
      unfold GoSlice.elems
      rcases h1 with h1 | h1
      · have : s.cells = [] := List.length_eq_zero_iff.mp (by omega)
        simp [this]
      · rw [h1, ← hlen, List.take_length]
    refine ⟨rfl, ?_, fun j => ?_⟩
    · simp only [he, List.length_append, List.length_replicate]; omega
    · simp only [he, List.getD_eq_getElem?_getD]
      by_cases hj : j < s.cells.length
      · rw [List.getElem?_append_left hj]
      · rw [List.getElem?_append_right (by omega), List.getElem?_eq_none (l := s.cells) (by omega), List.getElem?_replicate]
        split <;> rfl

theorem filling_set {σ τ : Type} {abs : σ → τ} {newCap : Nat → Nat → Nat} {zero : σ} {idx : Nat} {s : GoSlice σ} (h : Filling idx s) (el : σ) :
    Filling (idx + 1) ((s.grow newCap zero (idx + 1)).set idx el) ∧
    absSlice zero abs ((s.grow newCap zero (idx + 1)).set idx el) = (absSlice zero abs s).write idx (abs el) := by
  obtain ⟨h1, h2, h3⟩ := filling_grow (newCap := newCap) (zero := zero) h
  refine ⟨⟨.inr h1, by simpa [GoSlice.set] using h2⟩, ?_⟩
  simp only [absSlice, Cells.write, GoSlice.set, h1, Cells.mk.injEq, and_true]
  funext j
  by_cases hj : j = idx
  · subst hj
    rw [if_pos rfl, List.getD_eq_getElem?_getD, List.getElem?_set_self (by omega)]
    rfl
  · rw [if_neg hj, List.getD_eq_getElem?_getD, List.getElem?_set_ne (Ne.symm hj), ← List.getD_eq_getElem?_getD, h3]

section
variable {σ τ : Type} {abs : σ → τ} {d : Nat → ValueDecoder σ} {I : Loose → τ → Option τ}

theorem sliceLoop_complete (hd : Exact abs d I) (newCap : Nat → Nat → Nat) (zero : σ) {l : List Loose} {u t : Str} (h : BeginsElements l u t) (idx : Nat) (s : GoSlice σ)
    (hs : Filling idx s) (a : Cells τ) (hI : (absSlice zero abs s).fill I idx l = some a) :
    ∃ s' N, absSlice zero abs s' = a ∧ ∀ fuel F, N ≤ fuel → N ≤ F → ∀ r, (sliceLoop newCap zero (d F) fuel idx s).stream r u = .ok s' false t := by
  induction l generalizing u idx s with
  | nil =>
    cases h with
    | nil hw =>
      injection hI with hI
      refine ⟨s, 1, hI, fun fuel F h1 h2 r => ?_⟩
      obtain ⟨fuel, rfl⟩ : ∃ n, fuel = n + 1 := ⟨fuel - 1, by omega⟩
      unfold sliceLoop
      rw [stream_nextType (sep_loose hw) (by decide) (by decide), if_pos (by decide)]
      exact stream_consume Sep.nil (c := c!"]") (by decide) (t := .arrayEnd) (by decide) t true
  | cons v l ih =>
    cases h with
    | cons hw hv hl =>
      simp only [Cells.fill, Option.bind_eq_bind] at hI
      obtain ⟨x, h1, h2⟩ := Option.bind_eq_some_iff.mp hI
      obtain ⟨g1, g2, g3⟩ := filling_grow (newCap := newCap) (zero := zero) hs
      have h1' : I v (abs ((s.grow newCap zero (idx + 1)).cells.getD idx zero)) = some x := by rw [g3]; exact h1
      obtain ⟨el, N, e1, hN⟩ := hd.complete hv h1'
      obtain ⟨k1, k2⟩ := filling_set (abs := abs) (newCap := newCap) (zero := zero) hs el
      rw [← e1, ← k2] at h2
      obtain ⟨s', M, e2, hM⟩ := ih hl (idx + 1) _ k1 h2
      refine ⟨s', N + M + 1, e2, fun fuel F h1 h2 r => ?_⟩
      obtain ⟨fuel, rfl⟩ : ∃ n, fuel = n + 1 := ⟨fuel - 1, by omega⟩
      unfold sliceLoop
      rw [stream_next hv hw, if_neg (type_ne_end v).1]
      simp only
      have := hN F (by omega) [] true looseSpace_nil
      rw [List.nil_append] at this
      rw [Prog.stream_andThen, this]
      exact hM fuel F (by omega) (by omega) false

theorem sliceLoop_sound (hd : Exact abs d I) (newCap : Nat → Nat → Nat) (zero : σ) (F fuel : Nat) {u t : Str} {idx : Nat} {s s' : GoSlice σ} {r r' : Bool}
    (hs : Filling idx s) (h : (sliceLoop newCap zero (d F) fuel idx s).stream r u = .ok s' r' t) :
    ∃ l, BeginsElements l u t ∧ (absSlice zero abs s).fill I idx l = some (absSlice zero abs s') := by
  induction fuel generalizing idx s r u with
  | zero => cases h
  | succ fuel ih =>
    unfold sliceLoop at h
    obtain ⟨w, c, t, r1, rfl, hw, _, g⟩ := nextType_ok h
    split at g
    · obtain ⟨w', c', u', r2, e, hw', hc, g⟩ := consume_ok g
      injection g with g1 _ g2
      subst g1 g2
      have := punct_char hc
      dsimp only at this
      subst this
      rw [e, ← List.append_assoc]
      exact ⟨[], .nil (looseSpace_append hw hw'), rfl⟩
    · simp only at g
      obtain ⟨m1, r3, s1, h1, h2⟩ := stream_andThen_ok g
      obtain ⟨w2, v, t2, e2, hw2, hv, hI⟩ := hd.sound h1
      obtain ⟨g1, g2, g3⟩ := filling_grow (newCap := newCap) (zero := zero) hs
      obtain ⟨k1, k2⟩ := filling_set (abs := abs) (newCap := newCap) (zero := zero) hs m1
      obtain ⟨l, hl, hf⟩ := ih k1 h2
      rw [e2, ← List.append_assoc]
      refine ⟨v :: l, .cons (looseSpace_append hw hw2) hv hl, ?_⟩
      rw [g3] at hI
      rw [k2] at hf
      have hI' : I v ((absSlice zero abs s).cell idx) = some (abs m1) := hI
      simp only [Cells.fill, Option.bind_eq_bind, hI', Option.bind_some]
      exact hf

theorem exact_slice (hd : Exact abs d I) (newCap : Nat → Nat → Nat) (zero : σ) :
    Exact (absSlice zero abs) (fun fuel => makeSliceDecoder newCap fuel zero (d fuel)) (fun v a => v.toCells I a) where
  complete := by
    intro v t s m a hv hI
    cases hv with
    | array hv =>
      obtain ⟨s', N, e, hN⟩ := sliceLoop_complete hd newCap zero hv 0 m ⟨.inl rfl, Nat.zero_le _⟩ a hI
      refine ⟨s', N, e, fun fuel hf w r hw => ?_⟩
      unfold makeSliceDecoder
      rw [stream_consume (sep_loose hw) (by decide) (by decide)]
      exact hN fuel fuel hf hf false
    | _ => simp [Loose.toCells] at hI
  sound := by
    intro fuel m m' r r' u s h
    obtain ⟨w, c, u', r1, rfl, hw, hc, g⟩ := consume_ok h
    have := punct_char hc
    dsimp only at this
    subst this
    obtain ⟨l, hl, hI⟩ := sliceLoop_sound hd newCap zero fuel fuel ⟨.inl rfl, Nat.zero_le _⟩ g
    exact ⟨w, _, _, rfl, hw, .array hl, hI⟩

end

/-! ## Arrays -/

section
variable {σ : Type} {d : Nat → ValueDecoder σ} {I : Loose → σ → Option σ}

theorem arrayLoop_complete (hd : Exact id d I) (zero : σ) {l : List Loose} {u t : Str} (h : BeginsElements l u t) (idx : Nat) (s a : List σ)
    (hI : fillList I idx l s = some a) :
    ∃ N, ∀ fuel F, N ≤ fuel → N ≤ F → ∀ r, (arrayLoop F zero (d F) fuel idx s).stream r u = .ok a false t := by
  induction l generalizing u idx s with
  | nil =>
    cases h with
    | nil hw =>
      injection hI with hI
      subst hI
      refine ⟨1, fun fuel F h1 h2 r => ?_⟩
      obtain ⟨fuel, rfl⟩ : ∃ n, fuel = n + 1 := ⟨fuel - 1, by omega⟩
      unfold arrayLoop
      rw [stream_nextType (sep_loose hw) (by decide) (by decide), if_pos (by decide)]
      exact stream_consume Sep.nil (c := c!"]") (by decide) (t := .arrayEnd) (by decide) t true
  | cons v l ih =>
    cases h with
    | cons hw hv hl =>
      rename_i w t' u
      simp only [fillList] at hI
      by_cases hidx : idx < s.length
      · rw [List.getElem?_eq_getElem hidx] at hI
        simp only at hI
        obtain ⟨x, h1, h2⟩ := Option.bind_eq_some_iff.mp hI
        obtain ⟨el, N, e1, hN⟩ := hd.complete (m := s[idx]) hv h1
        rw [id] at e1
        subst e1
        obtain ⟨M, hM⟩ := ih hl (idx + 1) _ h2
        refine ⟨N + M + 1, fun fuel F h1 h2 r => ?_⟩
        obtain ⟨fuel, rfl⟩ : ∃ n, fuel = n + 1 := ⟨fuel - 1, by omega⟩
        unfold arrayLoop
        have := hN F (by omega) [] true looseSpace_nil
        rw [List.nil_append] at this
        rw [stream_next hv hw, if_neg (type_ne_end v).1, if_pos hidx, Prog.stream_andThen, List.getD_eq_getElem?_getD, List.getElem?_eq_getElem hidx, Option.getD_some, this]
        exact hM fuel F (by omega) (by omega) false
      · rw [List.getElem?_eq_none (by omega)] at hI
        simp only at hI
        obtain ⟨N, hN⟩ := skipValue_begins hv
        obtain ⟨M, hM⟩ := ih hl (idx + 1) _ hI
        refine ⟨N + M + 1, fun fuel F h1 h2 r => ?_⟩
        obtain ⟨fuel, rfl⟩ : ∃ n, fuel = n + 1 := ⟨fuel - 1, by omega⟩
        unfold arrayLoop
        have := hN F (by omega) [] true looseSpace_nil
        rw [List.nil_append] at this
        rw [stream_next hv hw, if_neg (type_ne_end v).1, if_neg hidx, Prog.stream_andThen, this]
        exact hM fuel F (by omega) (by omega) false

theorem arrayLoop_sound (hd : Exact id d I) (zero : σ) (F fuel : Nat) {u t : Str} {idx : Nat} {s s' : List σ} {r r' : Bool}
    (h : (arrayLoop F zero (d F) fuel idx s).stream r u = .ok s' r' t) : ∃ l, BeginsElements l u t ∧ fillList I idx l s = some s' := by
  induction fuel generalizing idx s r u with
  | zero => cases h
  | succ fuel ih =>
    unfold arrayLoop at h
    obtain ⟨w, c, t, r1, rfl, hw, _, g⟩ := nextType_ok h
    split at g
    · obtain ⟨w', c', u', r2, e, hw', hc, g⟩ := consume_ok g
      injection g with g1 _ g2
      subst g1 g2
      have := punct_char hc
      dsimp only at this
      subst this
      rw [e, ← List.append_assoc]
      exact ⟨[], .nil (looseSpace_append hw hw'), rfl⟩
    · split at g
      · rename_i hidx
        obtain ⟨m1, r3, s1, h1, h2⟩ := stream_andThen_ok g
        obtain ⟨w2, v, t2, e2, hw2, hv, hI⟩ := hd.sound h1
        obtain ⟨l, hl, hf⟩ := ih h2
        rw [e2, ← List.append_assoc]
        refine ⟨v :: l, .cons (looseSpace_append hw hw2) hv hl, ?_⟩
        rw [List.getD_eq_getElem?_getD, List.getElem?_eq_getElem hidx, Option.getD_some, id, id] at hI
        simp only [fillList, List.getElem?_eq_getElem hidx, hI, Option.bind_some]
        exact hf
      · rename_i hidx
        obtain ⟨m1, r3, s1, h1, h2⟩ := stream_andThen_ok g
        obtain ⟨w2, v, t2, e2, hw2, hv⟩ := skipValue_sound h1
        obtain ⟨l, hl, hf⟩ := ih h2
        rw [e2, ← List.append_assoc]
        refine ⟨v :: l, .cons (looseSpace_append hw hw2) hv hl, ?_⟩
        simp only [fillList, List.getElem?_eq_none (Nat.le_of_not_lt hidx)]
        exact hf

theorem exact_array (hd : Exact id d I) (zero : σ) : Exact id (fun fuel => makeArrayDecoder fuel zero (d fuel)) (fun v a => v.toList I a) where
  complete := by
    intro v t s m a hv hI
    cases hv with
    | array hv =>
      obtain ⟨N, hN⟩ := arrayLoop_complete hd zero hv 0 m a hI
      refine ⟨a, N, rfl, fun fuel hf w r hw => ?_⟩
      unfold makeArrayDecoder
      rw [stream_consume (sep_loose hw) (by decide) (by decide)]
      exact hN fuel fuel hf hf false
    | _ => simp [Loose.toList] at hI
  sound := by
    intro fuel m m' r r' u s h
    obtain ⟨w, c, u', r1, rfl, hw, hc, g⟩ := consume_ok h
    have := punct_char hc
    dsimp only at this
    subst this
    obtain ⟨l, hl, hI⟩ := arrayLoop_sound hd zero fuel fuel g
    exact ⟨w, _, _, rfl, hw, .array hl, hI⟩

end

/-! ## The formats -/

theorem exact_endpoint : Exact id endpointValueDecoder (fun v a => v.members endpointMember a) :=
  exact_struct (.cons (exact_string.field (get' := Endpoint.serviceName) (set' := fun x e => { e with serviceName := x }) (fun _ => rfl) (fun _ _ => rfl)) .nil)

theorem exact_spanV2 : Exact id spanV2ValueDecoder (fun v _ => v.toSpanV2) := by
  have h : Exact id (fun fuel => makeStructDecoder fuel (spanV2Fields fuel)) (fun v a => v.members spanV2Member a) :=
    exact_struct (
      .cons (exact_id.field (get' := SpanV2.id) (set' := fun x s => { s with id := x }) (fun _ => rfl) (fun _ _ => rfl)) <|
      .cons (exact_id.field (get' := SpanV2.traceId) (set' := fun x s => { s with traceId := x }) (fun _ => rfl) (fun _ _ => rfl)) <|
      .cons (exact_id.field (get' := SpanV2.parentId) (set' := fun x s => { s with parentId := x }) (fun _ => rfl) (fun _ _ => rfl)) <|
      .cons (exact_micros.field (get' := SpanV2.timestamp) (set' := fun x s => { s with timestamp := x }) (fun _ => rfl) (fun _ _ => rfl)) <|
      .cons (exact_micros.field (get' := SpanV2.duration) (set' := fun x s => { s with duration := x }) (fun _ => rfl) (fun _ _ => rfl)) <|
      .cons (exact_string.field (get' := SpanV2.name) (set' := fun x s => { s with name := x }) (fun _ => rfl) (fun _ _ => rfl)) <|
      .cons (exact_tags.field (get' := SpanV2.tags) (set' := fun x s => { s with tags := x }) (fun _ => rfl) (fun _ _ => rfl)) <|
      .cons (exact_string.field (get' := SpanV2.kind) (set' := fun x s => { s with kind := x }) (fun _ => rfl) (fun _ _ => rfl)) <|
      .cons (exact_endpoint.field (get' := SpanV2.endpoint) (set' := fun x s => { s with endpoint := x }) (fun _ => rfl) (fun _ _ => rfl)) .nil)
  exact h.before (pre := fun _ => {}) (pre' := fun _ => {}) (fun _ => rfl)

theorem exact_binaryAnnotation : Exact id (fun fuel => makeStructDecoder fuel (binaryAnnotationV1Fields fuel)) (fun v a => v.members binaryAnnotationMember a) :=
  exact_struct (
    .cons (exact_string.field (get' := BinaryAnnotationV1.key) (set' := fun x s => { s with key := x }) (fun _ => rfl) (fun _ _ => rfl)) <|
    .cons (exact_scalar.field (get' := BinaryAnnotationV1.value) (set' := fun x s => { s with value := x }) (fun _ => rfl) (fun _ _ => rfl)) <|
    .cons (exact_endpoint.field (get' := BinaryAnnotationV1.endpoint) (set' := fun x s => { s with endpoint := x }) (fun _ => rfl) (fun _ _ => rfl)) .nil)

theorem exact_annotation : Exact id (fun fuel => makeStructDecoder fuel (annotationV1Fields fuel)) (fun v a => v.members annotationMember a) :=
  exact_struct (
    .cons (exact_micros.field (get' := AnnotationV1.timestamp) (set' := fun x s => { s with timestamp := x }) (fun _ => rfl) (fun _ _ => rfl)) <|
    .cons (exact_string.field (get' := AnnotationV1.value) (set' := fun x s => { s with value := x }) (fun _ => rfl) (fun _ _ => rfl)) <|
    .cons (exact_endpoint.field (get' := AnnotationV1.endpoint) (set' := fun x s => { s with endpoint := x }) (fun _ => rfl) (fun _ _ => rfl)) .nil)

/-- A span of version 1 in memory. -/
def absV1 (s : SpanV1) : MemV1 :=
  { traceId := s.traceId, id := s.id, parentId := s.parentId, annotations := s.annotations, binaryAnnotations := absSlice {} id s.binaryAnnotations, name := s.name,
    timestamp := s.timestamp, duration := s.duration }

theorem absV1_reset (s : SpanV1) : absV1 s.reset = (absV1 s).clear := by
  simp only [absV1, SpanV1.reset, MemV1.clear, absSlice, MemV1.mk.injEq, Cells.mk.injEq, true_and, and_true]
  funext i
  simp only [id, GoSlice.elems, List.length_take, List.getD_eq_getElem?_getD]
  by_cases hi : i < s.binaryAnnotations.len
  · rw [if_pos hi]
    by_cases hc : i < s.binaryAnnotations.cells.length
    · rw [List.getElem?_append_left (by rw [List.length_replicate]; omega), List.getElem?_replicate]
      split <;> rfl
    · rw [List.getElem?_append_right (by rw [List.length_replicate]; omega), List.getElem?_eq_none (by rw [List.length_drop, List.length_replicate]; omega)]
      rfl
  · rw [if_neg hi, List.getElem?_append_right (by rw [List.length_replicate]; omega), List.length_replicate, List.getElem?_drop]
    by_cases hc : s.binaryAnnotations.len ≤ s.binaryAnnotations.cells.length
    · congr 2
      omega
    · rw [List.getElem?_eq_none (by omega), List.getElem?_eq_none (by omega)]

theorem exactFields_spanV1 (newCap : Nat → Nat → Nat) : ExactFields absV1 (spanV1Fields newCap) spanV1Member :=
  .cons (exact_id.field (get' := MemV1.id) (set' := fun x s => { s with id := x }) (fun _ => rfl) (fun _ _ => rfl)) <|
  .cons (exact_id.field (get' := MemV1.traceId) (set' := fun x s => { s with traceId := x }) (fun _ => rfl) (fun _ _ => rfl)) <|
  .cons (exact_id.field (get' := MemV1.parentId) (set' := fun x s => { s with parentId := x }) (fun _ => rfl) (fun _ _ => rfl)) <|
  .cons (exact_micros.field (get' := MemV1.timestamp) (set' := fun x s => { s with timestamp := x }) (fun _ => rfl) (fun _ _ => rfl)) <|
  .cons (exact_micros.field (get' := MemV1.duration) (set' := fun x s => { s with duration := x }) (fun _ => rfl) (fun _ _ => rfl)) <|
  .cons (exact_string.field (get' := MemV1.name) (set' := fun x s => { s with name := x }) (fun _ => rfl) (fun _ _ => rfl)) <|
  .cons ((exact_slice exact_binaryAnnotation newCap {}).field (get' := MemV1.binaryAnnotations) (set' := fun x s => { s with binaryAnnotations := x })
    (fun _ => rfl) (fun _ _ => rfl)) <|
  .cons ((exact_array exact_annotation {}).field (get' := MemV1.annotations) (set' := fun x s => { s with annotations := x }) (fun _ => rfl) (fun _ _ => rfl)) .nil

theorem exact_spanV1 (newCap : Nat → Nat → Nat) : Exact absV1 (spanV1ValueDecoder newCap) (fun v a => v.toMemV1 a) :=
  (exact_struct (exactFields_spanV1 newCap)).before absV1_reset

theorem exact_bodyV2 (newCap : Nat → Nat → Nat) : Exact (absSlice {} id) (decoderSliceSpanV2 newCap) (fun v a => v.toCells (fun v _ => v.toSpanV2) a) :=
  exact_slice exact_spanV2 newCap {}

theorem exact_bodyV1 (newCap : Nat → Nat → Nat) : Exact (absSlice {} absV1) (decoderSliceSpanV1 newCap) (fun v a => v.toCells (fun v a => v.toMemV1 a) a) :=
  exact_slice (exact_spanV1 newCap) newCap {}

end Verif
