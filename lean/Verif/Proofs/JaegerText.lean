import Verif.Proofs.Scan
import Verif.Proofs.View
import Verif.Spec.JaegerAny

/-!
# The text of any request of the jaeger format
-/

namespace Verif

open Spec

/-! ## The scanner -/

mutual

/-- The scanner accepts every JSON text that is not nested too deep, whatever follows it. -/
theorem scanValue_textOf {n : Nat} {j : Json} {t : Str} (h : JsonTextOf n j t) : ScansValue n (rawOf j) t :=
  match h with
  | .word w => by
    cases w with
    | null => exact scans_word (c := c!"n") (t := b!"ull") n .null rfl (by decide) (by decide) fun f q => by rw [scanValue.eq_def]; rfl
    | true => exact scans_word (c := c!"t") (t := b!"rue") n .true rfl (by decide) (by decide) fun f q => by rw [scanValue.eq_def]; rfl
    | false => exact scans_word (c := c!"f") (t := b!"alse") n .false rfl (by decide) (by decide) fun f q => by rw [scanValue.eq_def]; rfl
  | .number h => by
    have := scanNumber_json h (rest := []) (by intro c hc; cases hc)
    exact scans_number n this
  | .string h => scans_string n (scanLit_text h [])
  | .emptyArray (n := n) (w := w) hw => by
    refine ⟨.emptyArray hw, rfl, ⟨_, _, rfl, by decide⟩, fun f q hf _ => ?_⟩
    cases f with
    | zero => simp at hf
    | succ f =>
      have e : c!"[" :: (w ++ [c!"]"]) ++ q = c!"[" :: (w ++ c!"]" :: q) := by simp
      rw [e, scanValue.eq_def]
      dsimp only
      rw [if_neg (by decide), if_pos rfl, if_neg (by omega), skipSpace_append hw (by decide)]
      dsimp only
      rw [if_pos rfl]
      rfl
  | .array (n := n) (w := w) (u := u) hw hu => by
    obtain ⟨g1, ⟨c, u', g2, g5, g6⟩, g3⟩ := scanElements_textOf hu
    refine ⟨.array hw g1, rfl, ⟨_, _, rfl, by decide⟩, fun f q hf _ => ?_⟩
    cases f with
    | zero => simp at hf
    | succ f =>
      have e : c!"[" :: (w ++ (u ++ [c!"]"])) ++ q = c!"[" :: (w ++ c :: (u' ++ c!"]" :: q)) := by rw [g2]; simp
      have g4 := g3 f q (by simp only [List.length_cons, List.length_append] at hf; omega)
      rw [g2, List.cons_append] at g4
      rw [e, scanValue.eq_def]
      dsimp only
      rw [if_neg (by decide), if_pos rfl, if_neg (by omega), skipSpace_append hw g5]
      dsimp only
      rw [if_neg g6, Nat.add_sub_cancel, g4]
      rfl
  | .emptyObject (n := n) (w := w) hw => by
    refine ⟨.emptyObject hw, rfl, ⟨_, _, rfl, by decide⟩, fun f q hf _ => ?_⟩
    cases f with
    | zero => simp at hf
    | succ f =>
      have e : c!"{" :: (w ++ [c!"}"]) ++ q = c!"{" :: (w ++ c!"}" :: q) := by simp
      rw [e, scanValue.eq_def]
      dsimp only
      rw [if_pos rfl, if_neg (by omega), skipSpace_append hw (by decide)]
      dsimp only
      rw [if_pos rfl]
      rfl
  | .object (n := n) (w := w) (u := u) hw hu => by
    obtain ⟨g1, ⟨u', g2⟩, g3⟩ := scanMembers_textOf hu
    refine ⟨.object hw g1, rfl, ⟨_, _, rfl, by decide⟩, fun f q hf _ => ?_⟩
    cases f with
    | zero => simp at hf
    | succ f =>
      have e : c!"{" :: (w ++ (u ++ [c!"}"])) ++ q = c!"{" :: (w ++ c!"\"" :: (u' ++ c!"}" :: q)) := by rw [g2]; simp
      have g4 := g3 f q (by simp only [List.length_cons, List.length_append] at hf; omega)
      rw [g2, List.cons_append] at g4
      rw [e, scanValue.eq_def]
      dsimp only
      rw [if_pos rfl, if_neg (by omega), skipSpace_append hw (by decide)]
      dsimp only
      rw [if_neg (by decide), Nat.add_sub_cancel, g4]
      rfl

theorem scanElements_textOf {n : Nat} {js : List Json} {u : Str} (h : ElementsTextOf n js u) : ScansElements n (rawsOf js) u :=
  match h with
  | .last (t := t) (w := w) ht hw => by
    obtain ⟨g1, _, ⟨c0, t0, g2, g3⟩, g4⟩ := scanValue_textOf ht
    refine ⟨.last g1 hw, elementsText_head (.last g1 hw), fun f q hf => ?_⟩
    rw [List.length_append] at hf
    cases f with
    | zero => omega
    | succ f =>
      rw [List.append_assoc, scanElements.eq_def]
      dsimp only
      rw [g4 f _ (by omega) (fun _ => numStop_sep hw (by simp))]
      dsimp only
      rw [skipSpace_append hw (by decide)]
      dsimp only
      rw [if_pos rfl]
      rfl
  | .cons (t := t) (w := w) (w' := w') (u := u) ht hw hw' hu => by
    obtain ⟨g1, _, ⟨c0, t0, g2, g3⟩, g4⟩ := scanValue_textOf ht
    obtain ⟨k1, ⟨c1, u', k2, k3, k4⟩, k5⟩ := scanElements_textOf hu
    refine ⟨.cons g1 hw hw' k1, elementsText_head (.cons g1 hw hw' k1), fun f q hf => ?_⟩
    simp only [List.length_append, List.length_cons] at hf
    cases f with
    | zero => omega
    | succ f =>
      have e : t ++ (w ++ c!"," :: (w' ++ u)) ++ c!"]" :: q = t ++ (w ++ c!"," :: (w' ++ (u ++ c!"]" :: q))) := by simp
      rw [e, scanElements.eq_def]
      dsimp only
      rw [g4 f _ (by omega) (fun _ => numStop_sep hw (by simp))]
      dsimp only
      rw [skipSpace_append hw (by decide)]
      dsimp only
      have e5 : skipSpace (w' ++ (u ++ c!"]" :: q)) = u ++ c!"]" :: q := by
        rw [k2, List.cons_append]
        exact skipSpace_append hw' k3 _
      rw [if_neg (by decide), if_pos rfl, e5, k5 f q (by omega)]
      rfl

theorem scanMembers_textOf {n : Nat} {ms : List (Str × Json)} {u : Str} (h : MembersTextOf n ms u) : ScansMembers n (rawMembers ms) u :=
  match h with
  | .last (key := lit) (w1 := w1) (w2 := w2) (t := t) (w := w) hk hw1 hw2 ht hw => by
    obtain ⟨g1, _, ⟨c0, t0, g2, g3⟩, g4⟩ := scanValue_textOf ht
    refine ⟨.last hk hw1 hw2 g1 hw, membersText_head (.last hk hw1 hw2 g1 hw), fun f q hf => ?_⟩
    simp only [List.length_append, List.length_cons] at hf
    cases f with
    | zero => omega
    | succ f =>
      have e : c!"\"" :: (lit ++ c!"\"" :: (w1 ++ c!":" :: (w2 ++ (t ++ w)))) ++ c!"}" :: q =
        c!"\"" :: (lit ++ c!"\"" :: (w1 ++ c!":" :: (w2 ++ (t ++ (w ++ c!"}" :: q))))) := by simp
      have hskip : ∀ q, skipSpace (w2 ++ (t ++ q)) = t ++ q := by
        intro q
        rw [g2, List.cons_append]
        exact skipSpace_append hw2 g3 _
      rw [e, scanMembers.eq_def]
      dsimp only
      rw [if_neg (by decide), scanLit_text hk]
      dsimp only
      rw [skipSpace_append hw1 (by decide)]
      dsimp only
      rw [if_neg (by decide), hskip, g4 f _ (by omega) (fun _ => numStop_sep hw (by simp))]
      dsimp only
      rw [skipSpace_append hw (by decide)]
      dsimp only
      rw [if_pos rfl]
      rfl
  | .cons (key := lit) (w1 := w1) (w2 := w2) (t := t) (w := w) (w' := w') (u := u) hk hw1 hw2 ht hw hw' hu => by
    obtain ⟨g1, _, ⟨c0, t0, g2, g3⟩, g4⟩ := scanValue_textOf ht
    obtain ⟨k1, ⟨u', k2⟩, k5⟩ := scanMembers_textOf hu
    refine ⟨.cons hk hw1 hw2 g1 hw hw' k1, membersText_head (.cons hk hw1 hw2 g1 hw hw' k1), fun f q hf => ?_⟩
    simp only [List.length_append, List.length_cons] at hf
    cases f with
    | zero => omega
    | succ f =>
      have e : c!"\"" :: (lit ++ c!"\"" :: (w1 ++ c!":" :: (w2 ++ (t ++ (w ++ c!"," :: (w' ++ u)))))) ++ c!"}" :: q =
        c!"\"" :: (lit ++ c!"\"" :: (w1 ++ c!":" :: (w2 ++ (t ++ (w ++ c!"," :: (w' ++ (u ++ c!"}" :: q))))))) := by simp
      have hskip : ∀ q, skipSpace (w2 ++ (t ++ q)) = t ++ q := by
        intro q
        rw [g2, List.cons_append]
        exact skipSpace_append hw2 g3 _
      rw [e, scanMembers.eq_def]
      dsimp only
      rw [if_neg (by decide), scanLit_text hk]
      dsimp only
      rw [skipSpace_append hw1 (by decide)]
      dsimp only
      rw [if_neg (by decide), hskip, g4 f _ (by omega) (fun _ => numStop_sep hw (by simp))]
      dsimp only
      rw [skipSpace_append hw (by decide)]
      dsimp only
      have e7 : skipSpace (w' ++ (u ++ c!"}" :: q)) = u ++ c!"}" :: q := by
        rw [k2, List.cons_append]
        exact skipSpace_append hw' (by decide) _
      rw [if_neg (by decide), if_pos rfl, e7, k5 f q (by omega)]
      rfl

end

mutual

/-- Every JSON text is the text of a value. -/
theorem jsonText_value {n : Nat} {t : Str} (h : JsonText n t) : ∃ j, JsonTextOf n j t :=
  match h with
  | .word w => ⟨_, .word w⟩
  | .number h => ⟨_, .number h⟩
  | .string h => ⟨_, .string h⟩
  | .emptyArray hw => ⟨_, .emptyArray hw⟩
  | .array hw hu => let ⟨_, h⟩ := elementsText_value hu; ⟨_, .array hw h⟩
  | .emptyObject hw => ⟨_, .emptyObject hw⟩
  | .object hw hu => let ⟨_, h⟩ := membersText_value hu; ⟨_, .object hw h⟩

theorem elementsText_value {n : Nat} {u : Str} (h : ElementsText n u) : ∃ l, ElementsTextOf n l u :=
  match h with
  | .last ht hw => let ⟨_, h⟩ := jsonText_value ht; ⟨_, .last h hw⟩
  | .cons ht hw hw' hu => let ⟨_, h⟩ := jsonText_value ht; let ⟨_, h'⟩ := elementsText_value hu; ⟨_, .cons h hw hw' h'⟩

theorem membersText_value {n : Nat} {u : Str} (h : MembersText n u) : ∃ l, MembersTextOf n l u :=
  match h with
  | .last hk h1 h2 ht hw => let ⟨_, h⟩ := jsonText_value ht; ⟨_, .last hk h1 h2 h hw⟩
  | .cons hk h1 h2 ht hw hw' hu => let ⟨_, h⟩ := jsonText_value ht; let ⟨_, h'⟩ := membersText_value hu; ⟨_, .cons hk h1 h2 h hw hw' h'⟩

end

/-- All literals in the value are possible. -/
inductive Fine : Json → Prop
  | word (w : JsonWord) : Fine (.word w)
  | number {t : Str} : JsonNumber t → Fine (.number t)
  | string {lit : Str} : LiteralText lit → Fine (.string lit)
  | array {l : List Json} : (∀ j ∈ l, Fine j) → Fine (.array l)
  | object {ms : List (Str × Json)} : (∀ m ∈ ms, LiteralText m.1) → (∀ m ∈ ms, Fine m.2) → Fine (.object ms)

mutual

theorem textOf_fine {n : Nat} {j : Json} {t : Str} (h : JsonTextOf n j t) : Fine j :=
  match h with
  | .word w => .word w
  | .number h => .number h
  | .string h => .string h
  | .emptyArray _ => .array (by simp)
  | .array _ hu => .array (elementsTextOf_fine hu)
  | .emptyObject _ => .object (by simp) (by simp)
  | .object _ hu => .object (fun m hm => (membersTextOf_fine hu m hm).1) fun m hm => (membersTextOf_fine hu m hm).2

theorem elementsTextOf_fine {n : Nat} {l : List Json} {u : Str} (h : ElementsTextOf n l u) : ∀ j ∈ l, Fine j :=
  match h with
  | .last ht _ => by
    have h1 := textOf_fine ht
    intro j hj
    rw [List.mem_singleton.mp hj]
    exact h1
  | .cons ht _ _ hu => by
    have h1 := textOf_fine ht
    have h2 := elementsTextOf_fine hu
    intro j hj
    rcases List.mem_cons.mp hj with rfl | hj
    · exact h1
    · exact h2 j hj

theorem membersTextOf_fine {n : Nat} {l : List (Str × Json)} {u : Str} (h : MembersTextOf n l u) : ∀ m ∈ l, LiteralText m.1 ∧ Fine m.2 :=
  match h with
  | .last hk _ _ ht _ => by
    have h1 := textOf_fine ht
    intro m hm
    rw [List.mem_singleton.mp hm]
    exact ⟨hk, h1⟩
  | .cons hk _ _ ht _ _ hu => by
    have h1 := textOf_fine ht
    have h2 := membersTextOf_fine hu
    intro m hm
    rcases List.mem_cons.mp hm with rfl | hm
    · exact ⟨hk, h1⟩
    · exact h2 m hm

end

/-! ## Strings -/

theorem literalText_high {a lit : Str} (ha : ∀ c ∈ a, 0x80 ≤ c) (h : LiteralText (a ++ lit)) : LiteralText lit := by
  induction a with
  | nil => exact h
  | cons c a ih =>
    have hc := ha c (by simp)
    rw [List.cons_append] at h
    refine ih (fun x hx => ha x (by simp [hx])) ?_
    generalize a ++ lit = z at h
    cases h with
    | char _ _ _ h => exact h
    | short => exact absurd hc (by decide)
    | unicode => exact absurd hc (by decide)

/-- Every literal stands for something. -/
theorem goString_exists (n : Nat) : ∀ {lit : Str}, lit.length ≤ n → LiteralText lit → ∃ v, GoString lit v := by
  induction n with
  | zero =>
    intro lit hl _
    rw [List.length_eq_zero_iff.mp (Nat.le_zero.mp hl)]
    exact ⟨_, .nil⟩
  | succ n ih =>
    intro lit hl h
    cases h with
    | nil => exact ⟨_, .nil⟩
    | @char c t h1 h2 h3 h =>
      rw [List.length_cons] at hl
      by_cases hc : c < 0x80
      · obtain ⟨v, hv⟩ := ih (by omega) h
        exact ⟨_, .ascii h1 h2 h3 hc hv⟩
      · by_cases hx : ∃ r rest, Scalar r ∧ c :: t = utf8 r ++ rest
        · obtain ⟨r, rest, hr, e⟩ := hx
          have hr80 : 0x80 ≤ r := by
            refine Classical.byContradiction fun hlt => hc ?_
            rw [utf8, if_pos (by omega)] at e
            rw [(List.cons.inj e).1, UInt8.lt_iff_toNat_lt, toNat_byte (by omega)]
            show r < 128
            omega
          obtain ⟨hne, hh⟩ := utf8_high hr.1 hr80
          have ht := LiteralText.char h1 h2 h3 h
          rw [e] at ht ⊢
          have hlen := congrArg List.length e
          have := List.length_pos_iff.mpr hne
          rw [List.length_cons, List.length_append] at hlen
          obtain ⟨v, hv⟩ := ih (by omega) (literalText_high hh ht)
          exact ⟨_, .char hr hr80 hv⟩
        · obtain ⟨v, hv⟩ := ih (by omega) h
          exact ⟨_, .bad (UInt8.not_lt.mp hc) (fun r rest hr e => hx ⟨r, rest, hr, e⟩) hv⟩
    | @short e c t he h =>
      simp only [List.length_cons] at hl
      obtain ⟨v, hv⟩ := ih (by omega) h
      exact ⟨_, .short he hv⟩
    | @unicode a b c d r t hr h =>
      simp only [List.length_cons] at hl
      by_cases hs : Surrogate r
      · by_cases hp : ∃ l1 l2 l3 l4 lo rest, t = c!"\\" :: c!"u" :: l1 :: l2 :: l3 :: l4 :: rest ∧ hex4 l1 l2 l3 l4 = some lo ∧ (r < 0xDC00 ∧ 0xDC00 ≤ lo ∧ lo < 0xE000)
        · obtain ⟨l1, l2, l3, l4, lo, rest, rfl, hlo, p1, p2, p3⟩ := hp
          have h' : LiteralText rest := by
            cases h with
            | char _ h => exact absurd rfl h
            | short h => simp [shortEscapes] at h
            | unicode _ h => exact h
          simp only [List.length_cons] at hl
          obtain ⟨v, hv⟩ := ih (by omega) h'
          exact ⟨_, .pair hr hlo ⟨hs.1, p1⟩ ⟨p2, p3⟩ hv⟩
        · obtain ⟨v, hv⟩ := ih (by omega) h
          exact ⟨_, .lone hr hs (fun l1 l2 l3 l4 lo rest e hlo hp' => hp ⟨l1, l2, l3, l4, lo, rest, e, hlo, hp'⟩) hv⟩
      · obtain ⟨v, hv⟩ := ih (by omega) h
        exact ⟨_, .unicode hr hs hv⟩

theorem getu4_eq {s : Str} {r : Nat} (h : getu4 s = some r) : ∃ l1 l2 l3 l4 rest, s = c!"\\" :: c!"u" :: l1 :: l2 :: l3 :: l4 :: rest ∧ hex4 l1 l2 l3 l4 = some r := by
  match s, h with
  | a :: b :: h1 :: h2 :: h3 :: h4 :: rest, h =>
    unfold getu4 at h
    dsimp only at h
    by_cases hab : a = c!"\\" ∧ b = c!"u"
    · rw [if_pos hab, hexRune_eq] at h
      exact ⟨_, _, _, _, _, by rw [hab.1, hab.2], h⟩
    · rw [if_neg hab] at h; cases h

theorem unquoteLoop_go (fuel : Nat) : ∀ {lit v : Str}, GoString lit v → lit.length < fuel → unquoteLoop fuel lit = some v := by
  induction fuel with
  | zero => intro lit v _ h; exact absurd h (by omega)
  | succ fuel ih =>
    intro lit v hj hf
    cases hj with
    | nil => rfl
    | @ascii c lit v hq hb hc h80 hj =>
      simp only [unquoteLoop]
      rw [if_neg hb, if_neg (by rintro (h | h); exact hq h; exact absurd h (by rw [UInt8.not_lt]; exact hc)), if_pos h80, ih hj (by simp at hf; omega)]
      rfl
    | @char r lit v hr hr80 hj =>
      obtain ⟨hne, hh⟩ := utf8_high hr.1 hr80
      obtain ⟨c, s, e⟩ := List.exists_cons_of_ne_nil hne
      have hc := hh c (by rw [e]; simp)
      have hd := decodeRune_utf8 hr.1 hr.2 lit
      rw [List.length_append] at hf
      have hp := List.length_pos_iff.mpr hne
      have hdrop : (utf8 r ++ lit).drop (utf8 r).length = lit := List.drop_left
      rw [e, List.cons_append] at hd hdrop ⊢
      simp only [unquoteLoop]
      rw [if_neg (by rintro rfl; exact absurd hc (by decide)), if_neg (by
        rintro (rfl | h)
        · exact absurd hc (by decide)
        · rw [UInt8.lt_iff_toNat_lt] at h
          rw [UInt8.le_iff_toNat_le] at hc
          have h : c.toNat < 32 := h
          have hc : 128 ≤ c.toNat := hc
          omega), if_neg (UInt8.not_lt.mpr hc), hd]
      dsimp only
      rw [hdrop, ih hj (by omega), encodeRune4_eq hr.2, e]
      rfl
    | @bad b lit v hb hbad hj =>
      have hb' : ¬ b < 0x80 := UInt8.not_lt.mpr hb
      have hd : (decodeRune (b :: lit)).1 = 0xFFFD ∧ (decodeRune (b :: lit)).2 = 1 := by
        refine Classical.byContradiction fun h => ?_
        obtain ⟨g1, _, g3⟩ := decodeRune_sound hb' h
        exact hbad _ ((b :: lit).drop (decodeRune (b :: lit)).2) g1 (by rw [← g3, List.take_append_drop])
      simp only [unquoteLoop]
      rw [if_neg (by rintro rfl; exact absurd hb (by decide)), if_neg (by
        rintro (rfl | h)
        · exact absurd hb (by decide)
        · rw [UInt8.lt_iff_toNat_lt] at h
          rw [UInt8.le_iff_toNat_le] at hb
          have h : b.toNat < 32 := h
          have hb : 128 ≤ b.toNat := hb
          omega), if_neg hb', hd.1, hd.2]
      rw [List.drop_one, List.tail_cons, ih hj (by simp at hf; omega), encodeRune4_eq (by decide)]
      rfl
    | @short e c lit v he hj =>
      have key : ∀ p ∈ shortEscapes, p.1 ≠ c!"u" ∧ simpleEscape p.1 = some p.2 := by decide
      obtain ⟨k1, k2⟩ := key _ he
      simp only [unquoteLoop, if_true]
      rw [if_neg k1, k2]
      simp only
      rw [ih hj (by simp at hf; omega)]
      rfl
    | @unicode h1 h2 h3 h4 r lit v hx hs hj =>
      simp only [unquoteLoop, if_true, getu4, and_self, hexRune_eq, hx, List.drop_succ_cons, List.drop_zero]
      rw [if_neg (by unfold Surrogate at hs; omega), encodeRune4_eq hs, ih hj (by simp at hf; omega)]
      rfl
    | @pair h1 h2 h3 h4 l1 l2 l3 l4 hi lo lit v hh hl hhi hlo hj =>
      simp only [unquoteLoop, if_true, getu4, and_self, hexRune_eq, hh, hl, List.drop_succ_cons, List.drop_zero]
      rw [if_pos (by omega), if_pos (by omega), encodeRune4_eq (by unfold Surrogate; omega), ih hj (by simp at hf; omega)]
      simp only [Option.map_some]
      rw [show (hi - 0xD800) * 0x400 + (lo - 0xDC00) + 0x10000 = 0x10000 + (hi - 0xD800) * 0x400 + (lo - 0xDC00) by omega]
    | @lone h1 h2 h3 h4 r lit v hx hs hlone hj =>
      have hg : getu4 (c!"\\" :: c!"u" :: h1 :: h2 :: h3 :: h4 :: lit) = some r := by
        simp only [getu4, if_true, and_self, hexRune_eq, hx]
      have hrest : (unquoteLoop fuel lit).map (encodeRune4 0xFFFD ++ ·) = some (utf8 0xFFFD ++ v) := by
        rw [ih hj (by simp at hf; omega), encodeRune4_eq (by decide)]
        rfl
      simp only [unquoteLoop, if_true, hg, List.drop_succ_cons, List.drop_zero]
      rw [if_pos ⟨hs.1, hs.2⟩]
      cases hg1 : getu4 lit with
      | none => exact hrest
      | some lo =>
        obtain ⟨l1, l2, l3, l4, rest, e, hlo⟩ := getu4_eq hg1
        dsimp only
        rw [if_neg (fun hp => hlone l1 l2 l3 l4 lo rest e hlo ⟨hp.2.1, hp.2.2⟩)]
        exact hrest

theorem goUnquote_loop (lit : Str) : goUnquote (c!"\"" :: (lit ++ [c!"\""])) = unquoteLoop (lit.length + 2) lit := by
  unfold goUnquote
  rw [if_neg (by
    rw [← List.cons_append, List.getLast?_concat]
    simp)]
  rw [List.drop_one, List.tail_cons, List.dropLast_concat]
  simp

/-- A literal is read as what it stands for. -/
theorem goUnquote_iff {lit v : Str} (h : LiteralText lit) : goUnquote (c!"\"" :: (lit ++ [c!"\""])) = some v ↔ GoString lit v := by
  obtain ⟨v', hv'⟩ := goString_exists _ (Nat.le_refl _) h
  have := unquoteLoop_go (lit.length + 2) hv' (by omega)
  rw [goUnquote_loop, this]
  constructor
  · rintro ⟨⟩
    exact hv'
  · intro hv
    rw [← this]
    exact unquoteLoop_go _ hv (by omega)

theorem goUnquote_some {lit : Str} (h : LiteralText lit) : ∃ v, goUnquote (c!"\"" :: (lit ++ [c!"\""])) = some v ∧ GoString lit v := by
  obtain ⟨v, hv⟩ := goString_exists _ (Nat.le_refl _) h
  exact ⟨v, (goUnquote_iff h).mpr hv, hv⟩

/-! ## Names -/

theorem equalFold_of_nameVariant {f key : Str} (h : NameVariant f key) : equalFold key (f.map toLower) = true := by
  induction h with
  | nil => rfl
  | same _ ih => rw [List.map_cons, equalFold.eq_def]; simp only [if_true]; exact ih
  | @lower c a b h1 h2 _ ih =>
    have key : ∀ c : UInt8, c!"A" ≤ c → c ≤ c!"Z" → toLower (c + 32) = toLower c := byte_forall (by decide +kernel)
    rw [List.map_cons, equalFold.eq_def]; simp only [key c h1 h2, if_true]; exact ih
  | @upper c a b h1 h2 _ ih =>
    have key : ∀ c : UInt8, c!"A" ≤ c → c ≤ c!"Z" → toLower c = toLower (c + 32) := byte_forall (by decide +kernel)
    rw [List.map_cons, equalFold.eq_def]; simp only [key c h1 h2, if_true]; exact ih
  | @longS c a b hc _ ih =>
    have e : toLower c = c!"s" := by rcases hc with rfl | rfl <;> decide
    rw [List.map_cons, e, equalFold.eq_def]
    simp only
    rw [if_neg (by decide), if_pos (by decide)]
    simpa using ih
  | @kelvin c a b hc _ ih =>
    have e : toLower c = c!"k" := by rcases hc with rfl | rfl <;> decide
    rw [List.map_cons, e, equalFold.eq_def]
    simp only
    rw [if_neg (by decide), if_neg (by decide), if_pos (by decide)]
    simpa using ih

theorem equalFold_iff {f key : Str} : equalFold key (f.map toLower) = true ↔ NameVariant f key := ⟨nameVariant_of_equalFold f key, equalFold_of_nameVariant⟩

end Verif
