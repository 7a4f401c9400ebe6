import Verif.Proofs.Truncate
import Verif.Proofs.Scan
import Verif.Spec.Loose

/-!
# What the parser of versions 1 and 2 accepts
-/

namespace Verif

open Spec

theorem looseSpace_append {w w' : Str} (h : LooseSpace w) (h' : LooseSpace w') : LooseSpace (w ++ w') := by
  intro c hc
  rcases List.mem_append.mp hc with hc | hc
  · exact h c hc
  · exact h' c hc

theorem looseSpace_nil : LooseSpace [] := by intro c hc; cases hc

/-! ## Operations -/

theorem loose_skipWhitespace {s s' : Str} {a : Unit} (h : Op.stream .skipWhitespace s = .ok a s') : ∃ w, s = w ++ s' ∧ LooseSpace w := by
  simp only [Op.stream] at h
  split at h
  · cases h
  · injection h with _ h
    refine ⟨s.takeWhile isCharSpace, by rw [← h]; exact List.takeWhile_append_dropWhile.symm, fun c hc => ?_⟩
    have key : ∀ c : UInt8, isCharSpace c = true → c ∈ [0x09, 0x0A, 0x0B, 0x0C, 0x0D, 0x20, c!":", c!",", 0x85, 0xA0] := byte_forall (by decide +kernel)
    exact key c (takeWhile_sound c hc)

theorem loose_current {s s' : Str} {a : UInt8} (h : Op.stream .current s = .ok a s') : s' = s ∧ ∃ t, s = a :: t := by
  cases s with
  | nil => simp [Op.stream] at h
  | cons c s =>
    simp only [Op.stream, SRun.ok.injEq] at h
    exact ⟨h.2.symm, s, by rw [h.1]⟩

theorem loose_consume {t : Punct} {s s' : Str} {a : Unit} (h : Op.stream (.consume t) s = .ok a s') : ∃ c, s = c :: s' ∧ symbolTable c = t.type := by
  cases s with
  | nil => simp [Op.stream] at h
  | cons c s =>
    simp only [Op.stream] at h
    split at h
    · injection h with _ h
      exact ⟨c, by rw [h], ‹_›⟩
    · cases h

theorem scanString_peel {s b rest : Str} {h : UInt8} (hs : scanString false s = some (h :: b, rest)) (hb : h ≠ c!"\\") : ∃ s', s = h :: s' ∧ scanString false s' = some (b, rest) := by
  cases s with
  | nil => simp [scanString] at hs
  | cons c s =>
    simp only [scanString] at hs
    split at hs
    · rename_i hc
      obtain ⟨⟨b', r⟩, h1, h2⟩ := Option.map_eq_some_iff.mp hs
      simp only [Prod.mk.injEq, List.cons.injEq] at h2
      exact absurd (h2.1.1.symm.trans hc) hb
    · split at hs
      · simp at hs
      · obtain ⟨⟨b', r⟩, h1, h2⟩ := Option.map_eq_some_iff.mp hs
        simp only [Prod.mk.injEq, List.cons.injEq] at h2
        obtain ⟨⟨rfl, rfl⟩, rfl⟩ := h2
        exact ⟨s, rfl, h1⟩

theorem scanString_sound (n : Nat) : ∀ {s body rest : Str} {v : Str}, s.length ≤ n → scanString false s = some (body, rest) → unescape body = some v →
    s = body ++ c!"\"" :: rest ∧ LooseLiteral body := by
  induction n with
  | zero =>
    intro s body rest v hn h
    cases s with
    | nil => simp [scanString] at h
    | cons c s => simp at hn
  | succ n ih =>
    intro s body rest v hn h hu
    cases s with
    | nil => simp [scanString] at h
    | cons c s =>
      rw [List.length_cons] at hn
      simp only [scanString] at h
      split at h
      · rename_i hc
        subst hc
        cases s with
        | nil => simp [scanString] at h
        | cons e s =>
          rw [List.length_cons] at hn
          simp only [scanString, Option.map_map] at h
          obtain ⟨⟨b, r⟩, h1, h2⟩ := Option.map_eq_some_iff.mp h
          simp only [Function.comp, Prod.mk.injEq] at h2
          obtain ⟨rfl, rfl⟩ := h2
          rw [unescape.eq_def] at hu
          dsimp only at hu
          rw [if_neg (by simp)] at hu
          by_cases he : e = c!"u"
          · subst he
            rw [if_neg (by simp)] at hu
            split at hu
            · rename_i a1 a2 a3 a4 b
              split at hu
              · cases hu
              · rename_i x hx
                obtain ⟨v', hv', _⟩ := Option.map_eq_some_iff.mp hu
                obtain ⟨k1, k2, k3, k4⟩ := goHex_of_hex4 hx
                have key : ∀ c : UInt8, goHex c = true → c ≠ c!"\\" := byte_forall (by decide +kernel)
                obtain ⟨s1, rfl, j1⟩ := scanString_peel h1 (key _ k1)
                obtain ⟨s2, rfl, j2⟩ := scanString_peel j1 (key _ k2)
                obtain ⟨s3, rfl, j3⟩ := scanString_peel j2 (key _ k3)
                obtain ⟨s4, rfl, j4⟩ := scanString_peel j3 (key _ k4)
                simp only [List.length_cons] at hn
                obtain ⟨e1, e2⟩ := ih (by omega) j4 hv'
                exact ⟨by rw [e1]; rfl, .unicode hx e2⟩
            · cases hu
          · rw [if_pos he] at hu
            obtain ⟨v', hv', _⟩ := Option.map_eq_some_iff.mp hu
            obtain ⟨e1, e2⟩ := ih (by omega) h1 hv'
            exact ⟨by rw [e1]; rfl, .escape he e2⟩
      · rename_i hc
        split at h
        · rename_i hq
          simp only [Option.some.injEq, Prod.mk.injEq] at h
          obtain ⟨rfl, rfl⟩ := h
          subst hq
          exact ⟨rfl, .nil⟩
        · rename_i hq
          obtain ⟨⟨b, r⟩, h1, h2⟩ := Option.map_eq_some_iff.mp h
          simp only [Prod.mk.injEq] at h2
          obtain ⟨rfl, rfl⟩ := h2
          rw [unescape.eq_def] at hu
          dsimp only at hu
          rw [if_pos hc] at hu
          obtain ⟨v', hv', _⟩ := Option.map_eq_some_iff.mp hu
          obtain ⟨e1, e2⟩ := ih (by omega) h1 hv'
          exact ⟨by rw [e1]; rfl, .char hq hc e2⟩

theorem loose_readString {s s' : Str} {a : Str} (h : Op.stream .readString s = .ok a s') : ∃ t, s = c!"\"" :: (t ++ c!"\"" :: s') ∧ LooseLiteral t := by
  cases s with
  | nil => simp [Op.stream] at h
  | cons c s =>
    simp only [Op.stream] at h
    split at h
    · cases h
    · rename_i hc
      have hc : c = c!"\"" := by simpa using hc
      subst hc
      cases hs : scanString false s with
      | none => rw [hs] at h; simp at h
      | some r =>
        obtain ⟨body, t⟩ := r
        rw [hs] at h
        simp only at h
        cases hu : unescape body with
        | none => rw [hu] at h; simp at h
        | some v =>
          rw [hu] at h
          simp only [SRun.ok.injEq] at h
          obtain ⟨e1, e2⟩ := scanString_sound _ (Nat.le_refl _) hs hu
          exact ⟨body, by rw [e1, h.2], e2⟩

theorem loose_readNumber {s s' : Str} {a : Str} (h : Op.stream .readNumber s = .ok a s') : ∃ t, s = t ++ s' ∧ LooseNumber t := by
  cases s with
  | nil => simp [Op.stream] at h
  | cons c s =>
    simp only [Op.stream] at h
    split at h
    · cases h
    · rename_i hc
      split at h
      · cases h
      · injection h with _ h
        refine ⟨c :: s.takeWhile numberChar, ?_, c, _, rfl, ?_, ?_⟩
        · rw [List.cons_append, ← h, List.takeWhile_append_dropWhile]
        · have key : ∀ c : UInt8, isCharDigit c = true → c ∈ b!"-0123456789" := byte_forall (by decide +kernel)
          exact key c (by simpa using hc)
        · intro d hd
          have key : ∀ c : UInt8, numberChar c = true → c ∈ b!"-0123456789.e" := byte_forall (by decide +kernel)
          exact key d (takeWhile_sound d hd)

theorem loose_readWord {w : Word} {s s' : Str} {a : Str} (h : Op.stream (.readWord w) s = .ok a s') : ∃ t, s = t ++ s' ∧ LooseWord t := by
  cases s with
  | nil => simp [Op.stream] at h
  | cons c s =>
    simp only [Op.stream] at h
    split at h
    · cases h
    · rename_i hl
      split at h
      · cases h
      · rename_i hc
        have hc : c = w.first := by simpa using hc
        injection h with _ h
        refine ⟨(c :: s).take w.length, by rw [← h, List.take_append_drop], ?_⟩
        have hlen : ((c :: s).take w.length).length = w.length := by rw [List.length_take]; omega
        cases w with
        | null => exact .inl ⟨hlen, .inl (by rw [hc]; rfl)⟩
        | true => exact .inl ⟨hlen, .inr (by rw [hc]; rfl)⟩
        | false => exact .inr ⟨hlen, by rw [hc]; rfl⟩

/-! ## Programs -/

section
variable {σ τ : Type}

theorem stream_op_ok {o : Op} {m : σ} {k : o.Res → Prog σ} {r r' : Bool} {s s' : Str} {v : σ} (h : (Prog.op o m k).stream r s = .ok v r' s') :
    ∃ a s1, o.stream s = .ok a s1 ∧ (k a).stream o.readyAfter s1 = .ok v r' s' := by
  simp only [Prog.stream] at h
  split at h
  · cases h
  · cases ho : o.stream s with
    | ok a s1 => rw [ho] at h; exact ⟨a, s1, rfl, h⟩
    | err => rw [ho] at h; cases h
    | bad => rw [ho] at h; cases h

theorem stream_andThen_ok {f : τ → σ} {k : τ → Prog σ} {p : Prog τ} {r r' : Bool} {s s' : Str} {v : σ} (h : (p.andThen f k).stream r s = .ok v r' s') :
    ∃ m r1 s1, p.stream r s = .ok m r1 s1 ∧ (k m).stream r1 s1 = .ok v r' s' := by
  rw [Prog.stream_andThen] at h
  cases hp : p.stream r s with
  | ok m r1 s1 => rw [hp] at h; exact ⟨m, r1, s1, rfl, h⟩
  | err m => rw [hp] at h; cases h
  | bad => rw [hp] at h; cases h
  | timeout => rw [hp] at h; cases h

theorem nextType_ok {m : σ} {k : JType → Prog σ} {r r' : Bool} {s s' : Str} {v : σ} (h : (nextType m k).stream r s = .ok v r' s') :
    ∃ w c t r1, s = w ++ c :: t ∧ LooseSpace w ∧ symbolTable c ≠ .error ∧ (k (symbolTable c)).stream r1 (c :: t) = .ok v r' s' := by
  obtain ⟨_, s1, h1, g1⟩ := stream_op_ok h
  obtain ⟨w, rfl, hw⟩ := loose_skipWhitespace h1
  obtain ⟨c, s2, h2, g2⟩ := stream_op_ok g1
  obtain ⟨rfl, t, rfl⟩ := loose_current h2
  split at g2
  · cases g2
  · exact ⟨w, c, t, _, rfl, hw, ‹_›, g2⟩

theorem consume_ok {t : Punct} {m : σ} {k : Prog σ} {r r' : Bool} {s s' : Str} {v : σ} (h : (consume t m k).stream r s = .ok v r' s') :
    ∃ w c u r1, s = w ++ c :: u ∧ LooseSpace w ∧ symbolTable c = t.type ∧ k.stream r1 u = .ok v r' s' := by
  obtain ⟨_, s1, h1, g1⟩ := stream_op_ok h
  obtain ⟨w, rfl, hw⟩ := loose_skipWhitespace h1
  obtain ⟨_, s2, h2, g2⟩ := stream_op_ok g1
  obtain ⟨c, rfl, hc⟩ := loose_consume h2
  exact ⟨w, c, s2, _, rfl, hw, hc, g2⟩

theorem readString_ok {m : σ} {k : Str → Prog σ} {r r' : Bool} {s s' : Str} {v : σ} (h : (readString m k).stream r s = .ok v r' s') :
    ∃ w lit u r1 a, s = w ++ c!"\"" :: (lit ++ c!"\"" :: u) ∧ LooseSpace w ∧ LooseLiteral lit ∧ (k a).stream r1 u = .ok v r' s' := by
  obtain ⟨_, s1, h1, g1⟩ := stream_op_ok h
  obtain ⟨w, rfl, hw⟩ := loose_skipWhitespace h1
  obtain ⟨a, s2, h2, g2⟩ := stream_op_ok g1
  obtain ⟨lit, rfl, hl⟩ := loose_readString h2
  exact ⟨w, lit, s2, _, a, rfl, hw, hl, g2⟩

/-- The program reads a value. -/
def LooseValue (p : Prog σ) : Prop := ∀ r s m r' s', p.stream r s = .ok m r' s' → ∃ w t, s = w ++ (t ++ s') ∧ LooseSpace w ∧ LooseText t

/-- The program reads the rest of an array. -/
def LooseRestArray (p : Prog σ) : Prop := ∀ r s m r' s', p.stream r s = .ok m r' s' → ∃ u, s = u ++ c!"]" :: s' ∧ LooseElements u

/-- The program reads the rest of an object. -/
def LooseRestObject (p : Prog σ) : Prop := ∀ r s m r' s', p.stream r s = .ok m r' s' → ∃ u, s = u ++ c!"}" :: s' ∧ LooseMembers u

theorem punct_char {c : UInt8} {t : Punct} (h : symbolTable c = t.type) :
    c = match t with | .objectBegin => c!"{" | .objectEnd => c!"}" | .arrayBegin => c!"[" | .arrayEnd => c!"]" := by
  have k1 : ∀ c : UInt8, symbolTable c = .objectBegin → c = c!"{" := byte_forall (by decide +kernel)
  have k2 : ∀ c : UInt8, symbolTable c = .objectEnd → c = c!"}" := byte_forall (by decide +kernel)
  have k3 : ∀ c : UInt8, symbolTable c = .arrayBegin → c = c!"[" := byte_forall (by decide +kernel)
  have k4 : ∀ c : UInt8, symbolTable c = .arrayEnd → c = c!"]" := byte_forall (by decide +kernel)
  cases t with
  | objectBegin => exact k1 c h
  | objectEnd => exact k2 c h
  | arrayBegin => exact k3 c h
  | arrayEnd => exact k4 c h

theorem loose_array {m : σ} {p : Prog σ} (h : LooseRestArray p) : LooseValue (consume .arrayBegin m p) := by
  intro r s v r' s' hs
  obtain ⟨w, c, u, r1, rfl, hw, hc, gs⟩ := consume_ok hs
  obtain ⟨u', rfl, hu⟩ := h _ _ _ _ _ gs
  have := punct_char hc
  dsimp only at this
  subst this
  exact ⟨w, _, by simp, hw, .array hu⟩

theorem loose_object {m : σ} {p : Prog σ} (h : LooseRestObject p) : LooseValue (consume .objectBegin m p) := by
  intro r s v r' s' hs
  obtain ⟨w, c, u, r1, rfl, hw, hc, gs⟩ := consume_ok hs
  obtain ⟨u', rfl, hu⟩ := h _ _ _ _ _ gs
  have := punct_char hc
  dsimp only at this
  subst this
  exact ⟨w, _, by simp, hw, .object hu⟩

theorem loose_endArray {m m' : σ} : LooseRestArray (consume .arrayEnd m (.done m')) := by
  intro r s v r' s' hs
  obtain ⟨w, c, u, r1, rfl, hw, hc, gs⟩ := consume_ok hs
  have := punct_char hc
  dsimp only at this
  subst this
  injection gs with _ _ gs
  subst gs
  exact ⟨w, rfl, .nil hw⟩

theorem loose_endObject {m m' : σ} : LooseRestObject (consume .objectEnd m (.done m')) := by
  intro r s v r' s' hs
  obtain ⟨w, c, u, r1, rfl, hw, hc, gs⟩ := consume_ok hs
  have := punct_char hc
  dsimp only at this
  subst this
  injection gs with _ _ gs
  subst gs
  exact ⟨w, rfl, .nil hw⟩

theorem Spec.LooseElements.space {w u : Str} (hw : LooseSpace w) (h : LooseElements u) : LooseElements (w ++ u) := by
  cases h with
  | nil h => exact .nil (looseSpace_append hw h)
  | cons h1 h2 h3 => rw [← List.append_assoc]; exact .cons (looseSpace_append hw h1) h2 h3

theorem Spec.LooseMembers.space {w u : Str} (hw : LooseSpace w) (h : LooseMembers u) : LooseMembers (w ++ u) := by
  cases h with
  | nil h => exact .nil (looseSpace_append hw h)
  | cons h1 h2 h3 h4 h5 => rw [← List.append_assoc]; exact .cons (looseSpace_append hw h1) h2 h3 h4 h5

theorem LooseRestArray.next {m : σ} {k : JType → Prog σ} (h : ∀ t, LooseRestArray (k t)) : LooseRestArray (nextType m k) := by
  intro r s v r' s' hs
  obtain ⟨w, c, t, r1, rfl, hw, _, gs⟩ := nextType_ok hs
  obtain ⟨u, e, hu⟩ := h _ _ _ _ _ _ gs
  exact ⟨w ++ u, by rw [e]; simp, hu.space hw⟩

theorem LooseRestObject.next {m : σ} {k : JType → Prog σ} (h : ∀ t, LooseRestObject (k t)) : LooseRestObject (nextType m k) := by
  intro r s v r' s' hs
  obtain ⟨w, c, t, r1, rfl, hw, _, gs⟩ := nextType_ok hs
  obtain ⟨u, e, hu⟩ := h _ _ _ _ _ _ gs
  exact ⟨w ++ u, by rw [e]; simp, hu.space hw⟩

theorem LooseValue.next {m : σ} {k : JType → Prog σ} (h : ∀ t, LooseValue (k t)) : LooseValue (nextType m k) := by
  intro r s v r' s' hs
  obtain ⟨w, c, t, r1, rfl, hw, _, gs⟩ := nextType_ok hs
  obtain ⟨w', u, e, hw', hu⟩ := h _ _ _ _ _ _ gs
  exact ⟨w ++ w', u, by rw [e]; simp, looseSpace_append hw hw', hu⟩

theorem LooseRestArray.element {f : τ → σ} {k : τ → Prog σ} {p : Prog τ} (hp : LooseValue p) (hk : ∀ m, LooseRestArray (k m)) : LooseRestArray (p.andThen f k) := by
  intro r s v r' s' hs
  obtain ⟨m, r1, s1, h1, h2⟩ := stream_andThen_ok hs
  obtain ⟨w, t, rfl, hw, ht⟩ := hp _ _ _ _ _ h1
  obtain ⟨u, rfl, hu⟩ := hk _ _ _ _ _ _ h2
  exact ⟨w ++ (t ++ u), by simp, .cons hw ht hu⟩

/-- A value and then the rest of an object. -/
def LooseMember (p : Prog σ) : Prop := ∀ r s m r' s', p.stream r s = .ok m r' s' → ∃ w t u, s = w ++ (t ++ (u ++ c!"}" :: s')) ∧ LooseSpace w ∧ LooseText t ∧ LooseMembers u

theorem LooseMember.value {f : τ → σ} {k : τ → Prog σ} {p : Prog τ} (hp : LooseValue p) (hk : ∀ m, LooseRestObject (k m)) : LooseMember (p.andThen f k) := by
  intro r s v r' s' hs
  obtain ⟨m, r1, s1, h1, h2⟩ := stream_andThen_ok hs
  obtain ⟨w, t, rfl, hw, ht⟩ := hp _ _ _ _ _ h1
  obtain ⟨u, rfl, hu⟩ := hk _ _ _ _ _ _ h2
  exact ⟨w, t, u, rfl, hw, ht, hu⟩

theorem LooseRestObject.member {m : σ} {k : Str → Prog σ} (h : ∀ a, LooseMember (k a)) : LooseRestObject (readString m k) := by
  intro r s v r' s' hs
  obtain ⟨w, lit, u, r1, a, rfl, hw, hl, gs⟩ := readString_ok hs
  obtain ⟨w', t, u', rfl, hw', ht, hu⟩ := h _ _ _ _ _ _ gs
  exact ⟨w ++ c!"\"" :: (lit ++ c!"\"" :: (w' ++ (t ++ u'))), by simp, .cons hw hl hw' ht hu⟩

theorem LooseValue.final {f : τ → σ} {k : τ → σ} {p : Prog τ} (hp : LooseValue p) : LooseValue (p.andThen f fun v => .done (k v)) := by
  intro r s v r' s' hs
  obtain ⟨m, r1, s1, h1, h2⟩ := stream_andThen_ok hs
  injection h2 with _ _ h2
  subst h2
  exact hp _ _ _ _ _ h1

end

/-! ## Decoders -/

theorem loose_opString {σ : Type} {m : σ} {k : Str → σ} : LooseValue (Prog.op .readString m fun a => .done (k a)) := by
  intro r s v r' s' hs
  obtain ⟨a, s1, h1, g1⟩ := stream_op_ok hs
  obtain ⟨t, rfl, ht⟩ := loose_readString h1
  injection g1 with _ _ g1
  subst g1
  exact ⟨[], _, by simp, looseSpace_nil, .string ht⟩

theorem loose_opNumber {σ : Type} {m : σ} {k : Str → Prog σ} (hk : ∀ a, (∃ v, k a = .done v) ∨ k a = .fail m) : LooseValue (Prog.op .readNumber m k) := by
  intro r s v r' s' hs
  obtain ⟨a, s1, h1, g1⟩ := stream_op_ok hs
  obtain ⟨t, rfl, ht⟩ := loose_readNumber h1
  rcases hk a with ⟨v', e⟩ | e
  · rw [e] at g1
    injection g1 with _ _ g1
    subst g1
    exact ⟨[], _, rfl, looseSpace_nil, .number ht⟩
  · rw [e] at g1; cases g1

theorem loose_opWord {σ : Type} {w : Word} {m : σ} {k : Str → σ} : LooseValue (Prog.op (.readWord w) m fun a => .done (k a)) := by
  intro r s v r' s' hs
  obtain ⟨a, s1, h1, g1⟩ := stream_op_ok hs
  obtain ⟨t, rfl, ht⟩ := loose_readWord h1
  injection g1 with _ _ g1
  subst g1
  exact ⟨[], _, rfl, looseSpace_nil, .word ht⟩

theorem loose_boolean {σ : Type} {m : σ} {k : Str → σ} : LooseValue (readBoolean m fun a => .done (k a)) := by
  intro r s v r' s' hs
  obtain ⟨a, s1, h1, g1⟩ := stream_op_ok hs
  obtain ⟨rfl, _⟩ := loose_current h1
  split at g1
  · exact loose_opWord _ _ _ _ _ g1
  · exact loose_opWord _ _ _ _ _ g1

theorem loose_opArray {σ : Type} {m : σ} {p : Prog σ} (h : LooseRestArray p) : LooseValue (Prog.op (.consume .arrayBegin) m fun _ => p) := by
  intro r s v r' s' hs
  obtain ⟨a, s1, h1, g1⟩ := stream_op_ok hs
  obtain ⟨c, rfl, hc⟩ := loose_consume h1
  obtain ⟨u', rfl, hu⟩ := h _ _ _ _ _ g1
  have := punct_char hc
  dsimp only at this
  subst this
  exact ⟨[], _, by simp, looseSpace_nil, .array hu⟩

theorem loose_opObject {σ : Type} {m : σ} {p : Prog σ} (h : LooseRestObject p) : LooseValue (Prog.op (.consume .objectBegin) m fun _ => p) := by
  intro r s v r' s' hs
  obtain ⟨a, s1, h1, g1⟩ := stream_op_ok hs
  obtain ⟨c, rfl, hc⟩ := loose_consume h1
  obtain ⟨u', rfl, hu⟩ := h _ _ _ _ _ g1
  have := punct_char hc
  dsimp only at this
  subst this
  exact ⟨[], _, by simp, looseSpace_nil, .object hu⟩

theorem loose_fail {σ : Type} {m : σ} : LooseValue (Prog.fail m) := by
  intro r s v r' s' hs; cases hs

theorem loose_skip (fuel : Nat) : (∀ next, LooseValue (skip fuel next)) ∧ LooseRestArray (skipArrayLoop fuel) ∧ LooseRestObject (skipObjectLoop fuel) := by
  induction fuel with
  | zero =>
    refine ⟨fun next r s v r' s' hs => ?_, fun r s v r' s' hs => ?_, fun r s v r' s' hs => ?_⟩
    · rw [skip.eq_def] at hs; cases hs
    · rw [skipArrayLoop.eq_def] at hs; cases hs
    · rw [skipObjectLoop.eq_def] at hs; cases hs
  | succ fuel ih =>
    obtain ⟨ihV, ihA, ihO⟩ := ih
    refine ⟨fun next => ?_, ?_, ?_⟩
    · rw [skip.eq_def]
      dsimp only
      split
      · exact loose_opString
      · exact loose_opNumber fun a => .inl ⟨_, rfl⟩
      · exact loose_boolean
      · exact loose_opWord
      · exact loose_opObject ihO
      · exact loose_opArray ihA
      · exact loose_fail
    · rw [skipArrayLoop.eq_def]
      refine LooseRestArray.next fun t => ?_
      split
      · intro r s v r' s' hs
        obtain ⟨a, s1, h1, g1⟩ := stream_op_ok hs
        obtain ⟨c, rfl, hc⟩ := loose_consume h1
        have := punct_char hc
        dsimp only at this
        subst this
        injection g1 with _ _ g1
        subst g1
        exact ⟨[], rfl, .nil looseSpace_nil⟩
      · exact .element (ihV t) fun _ => ihA
    · rw [skipObjectLoop.eq_def]
      refine LooseRestObject.next fun t => ?_
      split
      · intro r s v r' s' hs
        obtain ⟨a, s1, h1, g1⟩ := stream_op_ok hs
        obtain ⟨c, rfl, hc⟩ := loose_consume h1
        have := punct_char hc
        dsimp only at this
        subst this
        injection g1 with _ _ g1
        subst g1
        exact ⟨[], rfl, .nil looseSpace_nil⟩
      · intro r s v r' s' hs
        obtain ⟨a, s1, h1, g1⟩ := stream_op_ok hs
        obtain ⟨lit, rfl, hl⟩ := loose_readString h1
        obtain ⟨w', t, u', rfl, hw', ht, hu⟩ := LooseMember.value (LooseValue.next ihV) (fun _ => ihO) _ _ _ _ _ g1
        exact ⟨[] ++ c!"\"" :: (lit ++ c!"\"" :: (w' ++ (t ++ u'))), by simp, .cons looseSpace_nil hl hw' ht hu⟩

theorem loose_skipValue (fuel : Nat) : LooseValue (skipValue fuel) := .next (loose_skip fuel).1

theorem loose_space {σ : Type} {m : σ} {p : Prog σ} (h : LooseValue p) : LooseValue (Prog.op .skipWhitespace m fun _ => p) := by
  intro r s v r' s' hs
  obtain ⟨a, s1, h1, g1⟩ := stream_op_ok hs
  obtain ⟨w, rfl, hw⟩ := loose_skipWhitespace h1
  obtain ⟨w', t, rfl, hw', ht⟩ := h _ _ _ _ _ g1
  exact ⟨w ++ w', t, by simp, looseSpace_append hw hw', ht⟩

theorem loose_uint64 (m : UInt64) : LooseValue (uint64ValueDecoder m) := by
  refine loose_space (loose_opNumber fun a => ?_)
  cases decimal a with
  | none => exact .inr rfl
  | some v => exact .inl ⟨v, rfl⟩

theorem loose_string (m : Str) : LooseValue (stringValueDecoder m) := loose_space loose_opString

theorem loose_any (m : Str) : LooseValue (anyValueDecoder m) := by
  unfold anyValueDecoder readLiteral
  refine LooseValue.next fun t => ?_
  split
  · exact loose_opString
  · exact loose_opNumber fun a => .inl ⟨_, rfl⟩
  · exact loose_boolean
  · exact loose_opWord
  · exact loose_fail

theorem loose_id (fuel : Nat) (m : Id) : LooseValue (idValueDecoder fuel m) := by
  refine LooseValue.next fun t => ?_
  split
  · exact (loose_skipValue fuel).final
  · refine loose_space fun r s v r' s' hs => ?_
    obtain ⟨a, s1, h1, g1⟩ := stream_op_ok hs
    obtain ⟨t, rfl, ht⟩ := loose_readString h1
    cases hp : parseId a with
    | none => rw [hp] at g1; cases g1
    | some id =>
      rw [hp] at g1
      injection g1 with _ _ g1
      subst g1
      exact ⟨[], _, by simp, looseSpace_nil, .string ht⟩

theorem loose_mapLoop {value : ValueDecoder Str} (hv : ∀ m, LooseValue (value m)) (m : Option TagMap) (fuel : Nat) (result : Option TagMap) :
    LooseRestObject (mapLoop stringValueDecoder value m fuel result) := by
  induction fuel generalizing result with
  | zero => intro r s v r' s' hs; cases hs
  | succ fuel ih =>
    refine LooseRestObject.next fun t => ?_
    split
    · exact loose_endObject
    · -- the decoder of the key reads a string
      have h2 := LooseRestObject.member (m := m) (k := fun key => (value []).andThen (fun _ => m) fun value' =>
          mapLoop stringValueDecoder value m fuel (some ((result.getD ∅).insert key value'))) fun a => .value (hv []) fun _ => ih _
      exact h2

theorem loose_map {value : ValueDecoder Str} (hv : ∀ m, LooseValue (value m)) (fuel : Nat) (m : Option TagMap) :
    LooseValue (makeMapDecoder fuel stringValueDecoder value m) := loose_object (loose_mapLoop hv m fuel none)

theorem loose_sliceLoop {α : Type} {newCap : Nat → Nat → Nat} {zero : α} {d : ValueDecoder α} (hd : ∀ a, LooseValue (d a)) (fuel idx : Nat) (s : GoSlice α) :
    LooseRestArray (sliceLoop newCap zero d fuel idx s) := by
  induction fuel generalizing idx s with
  | zero => intro r s v r' s' hs; cases hs
  | succ fuel ih =>
    refine LooseRestArray.next fun t => ?_
    dsimp only
    split
    · exact loose_endArray
    · exact .element (hd _) fun _ => ih _ _

theorem loose_slice {α : Type} {newCap : Nat → Nat → Nat} {zero : α} {d : ValueDecoder α} (hd : ∀ a, LooseValue (d a)) (fuel : Nat) (s : GoSlice α) :
    LooseValue (makeSliceDecoder newCap fuel zero d s) := loose_array (loose_sliceLoop hd fuel 0 s)

theorem loose_arrayLoop {α : Type} {zero : α} {d : ValueDecoder α} (hd : ∀ a, LooseValue (d a)) (skipFuel fuel idx : Nat) (s : List α) :
    LooseRestArray (arrayLoop skipFuel zero d fuel idx s) := by
  induction fuel generalizing idx s with
  | zero => intro r s v r' s' hs; cases hs
  | succ fuel ih =>
    refine LooseRestArray.next fun t => ?_
    split
    · exact loose_endArray
    · split
      · exact .element (hd _) fun _ => ih _ _
      · exact .element (loose_skipValue _) fun _ => ih _ _

theorem loose_arrayDecoder {α : Type} {zero : α} {d : ValueDecoder α} (hd : ∀ a, LooseValue (d a)) (fuel : Nat) (s : List α) :
    LooseValue (makeArrayDecoder fuel zero d s) := loose_array (loose_arrayLoop hd fuel fuel 0 s)

theorem loose_structLoop {σ : Type} {fields : List (Str × ValueDecoder σ)} (hd : ∀ f ∈ fields, ∀ m, LooseValue (f.2 m)) (skipFuel fuel : Nat) (m : σ) :
    LooseRestObject (structLoop skipFuel fields fuel m) := by
  induction fuel generalizing m with
  | zero => intro r s v r' s' hs; cases hs
  | succ fuel ih =>
    refine LooseRestObject.next fun t => ?_
    split
    · exact loose_endObject
    · refine LooseRestObject.member fun key => ?_
      cases hk : fields.lookup key with
      | none => exact .value (loose_skipValue _) fun _ => ih _
      | some d =>
        obtain ⟨l1, l2, e, _⟩ := List.lookup_eq_some_iff.mp hk
        exact .value (hd (key, d) (by rw [e]; simp) m) fun _ => ih _

theorem loose_struct {σ : Type} {fields : List (Str × ValueDecoder σ)} (hd : ∀ f ∈ fields, ∀ m, LooseValue (f.2 m)) (fuel : Nat) (m : σ) :
    LooseValue (makeStructDecoder fuel fields m) := loose_object (loose_structLoop hd fuel fuel m)

theorem loose_field {τ σ : Type} {get : σ → τ} {set : τ → σ → σ} {d : ValueDecoder τ} (hd : ∀ m, LooseValue (d m)) (m : σ) : LooseValue (d.field get set m) := (hd _).final

theorem loose_endpoint (fuel : Nat) (m : Endpoint) : LooseValue (endpointValueDecoder fuel m) := by
  refine loose_struct (fun f hf => ?_) fuel m
  simp only [List.mem_cons, List.not_mem_nil, or_false] at hf
  subst hf
  exact loose_field loose_string

theorem loose_fieldsV2 (fuel : Nat) : ∀ f ∈ spanV2Fields fuel, ∀ m, LooseValue (f.2 m) := by
  intro f hf
  simp only [spanV2Fields, List.mem_cons, List.not_mem_nil, or_false] at hf
  rcases hf with rfl | rfl | rfl | rfl | rfl | rfl | rfl | rfl | rfl
  · exact loose_field (loose_id fuel)
  · exact loose_field (loose_id fuel)
  · exact loose_field (loose_id fuel)
  · exact loose_field loose_uint64
  · exact loose_field loose_uint64
  · exact loose_field loose_string
  · exact loose_field (loose_map loose_string fuel)
  · exact loose_field loose_string
  · exact loose_field (loose_endpoint fuel)

theorem loose_binaryAnnotation (fuel : Nat) (m : BinaryAnnotationV1) : LooseValue (makeStructDecoder fuel (binaryAnnotationV1Fields fuel) m) := by
  refine loose_struct (fun f hf => ?_) fuel _
  simp only [binaryAnnotationV1Fields, List.mem_cons, List.not_mem_nil, or_false] at hf
  rcases hf with rfl | rfl | rfl
  · exact loose_field loose_string
  · exact loose_field loose_any
  · exact loose_field (loose_endpoint fuel)

theorem loose_annotation (fuel : Nat) (m : AnnotationV1) : LooseValue (makeStructDecoder fuel (annotationV1Fields fuel) m) := by
  refine loose_struct (fun f hf => ?_) fuel _
  simp only [annotationV1Fields, List.mem_cons, List.not_mem_nil, or_false] at hf
  rcases hf with rfl | rfl | rfl
  · exact loose_field loose_uint64
  · exact loose_field loose_string
  · exact loose_field (loose_endpoint fuel)

theorem loose_fieldsV1 (newCap : Nat → Nat → Nat) (fuel : Nat) : ∀ f ∈ spanV1Fields newCap fuel, ∀ m, LooseValue (f.2 m) := by
  intro f hf
  simp only [spanV1Fields, List.mem_cons, List.not_mem_nil, or_false] at hf
  rcases hf with rfl | rfl | rfl | rfl | rfl | rfl | rfl | rfl
  · exact loose_field (loose_id fuel)
  · exact loose_field (loose_id fuel)
  · exact loose_field (loose_id fuel)
  · exact loose_field loose_uint64
  · exact loose_field loose_uint64
  · exact loose_field loose_string
  · exact loose_field (loose_slice (loose_binaryAnnotation fuel) fuel)
  · exact loose_field (loose_arrayDecoder (loose_annotation fuel) fuel)

/-! ## Arrays of objects -/

def LooseObject {σ : Type} (p : Prog σ) : Prop := ∀ r s v r' s', p.stream r s = .ok v r' s' → ∃ w m, s = w ++ c!"{" :: (m ++ c!"}" :: s') ∧ LooseSpace w ∧ LooseMembers m

theorem looseObject_struct {σ : Type} {fields : List (Str × ValueDecoder σ)} (hd : ∀ f ∈ fields, ∀ m, LooseValue (f.2 m)) (fuel : Nat) (m : σ) :
    LooseObject (makeStructDecoder fuel fields m) := by
  intro r s v r' s' hs
  obtain ⟨w, c, u, r1, rfl, hw, hc, gs⟩ := consume_ok hs
  obtain ⟨u', rfl, hu⟩ := loose_structLoop hd fuel fuel m _ _ _ _ _ gs
  have := punct_char hc
  dsimp only at this
  subst this
  exact ⟨w, _, rfl, hw, hu⟩

theorem Spec.LooseObjects.space {w u : Str} (hw : LooseSpace w) (h : LooseObjects u) : LooseObjects (w ++ u) := by
  cases h with
  | nil h => exact .nil (looseSpace_append hw h)
  | cons h1 h2 h3 => rw [← List.append_assoc]; exact .cons (looseSpace_append hw h1) h2 h3

theorem looseObjects_loop {α : Type} {newCap : Nat → Nat → Nat} {zero : α} {d : ValueDecoder α} (hd : ∀ a, LooseObject (d a)) (fuel idx : Nat) (l : GoSlice α) (r : Bool) (s : Str)
    (v : GoSlice α) (r' : Bool) (s' : Str) (h : (sliceLoop newCap zero d fuel idx l).stream r s = .ok v r' s') : ∃ u, s = u ++ c!"]" :: s' ∧ LooseObjects u := by
  induction fuel generalizing idx l r s with
  | zero => cases h
  | succ fuel ih =>
    obtain ⟨w, c, u, r1, rfl, hw, _, g⟩ := nextType_ok h
    split at g
    · obtain ⟨w', c, u, r1, e, hw', hc, gs⟩ := consume_ok g
      have := punct_char hc
      dsimp only at this
      subst this
      injection gs with _ _ gs
      subst gs
      exact ⟨w ++ w', by rw [e]; simp, .nil (looseSpace_append hw hw')⟩
    · obtain ⟨a, r2, s2, h1, h2⟩ := stream_andThen_ok g
      obtain ⟨w', m, e, hw', hm⟩ := hd _ _ _ _ _ _ h1
      obtain ⟨u', rfl, hu⟩ := ih _ _ _ _ h2
      exact ⟨w ++ (w' ++ c!"{" :: (m ++ c!"}" :: u')), by rw [e]; simp, .space hw (.cons hw' hm hu)⟩

theorem looseObjects_slice {α : Type} {newCap : Nat → Nat → Nat} {zero : α} {d : ValueDecoder α} (hd : ∀ a, LooseObject (d a)) (fuel : Nat) (l : GoSlice α) (r : Bool) (s : Str)
    (v : GoSlice α) (r' : Bool) (s' : Str) (h : (makeSliceDecoder newCap fuel zero d l).stream r s = .ok v r' s') :
    ∃ w u, s = w ++ c!"[" :: (u ++ c!"]" :: s') ∧ LooseSpace w ∧ LooseObjects u := by
  obtain ⟨w, c, u, r1, rfl, hw, hc, gs⟩ := consume_ok h
  obtain ⟨u', rfl, hu⟩ := looseObjects_loop hd _ _ _ _ _ _ _ _ gs
  have := punct_char hc
  dsimp only at this
  subst this
  exact ⟨w, _, rfl, hw, hu⟩

end Verif
