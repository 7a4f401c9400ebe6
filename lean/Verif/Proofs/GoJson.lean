import Verif.Model.GoJson
import Verif.Spec.Jaeger
import Verif.Proofs.JsonString

namespace Verif

open Spec

/-! ## Scanning -/

theorem goSpace_iff {c : UInt8} : goSpace c = true ↔ c = 0x20 ∨ c = 0x09 ∨ c = 0x0A ∨ c = 0x0D := by
  unfold goSpace
  simp only [Bool.or_eq_true, decide_eq_true_eq]
  constructor
  · rintro (((h | h) | h) | h) <;> simp [h]
  · rintro (h | h | h | h) <;> simp [h]

theorem skipSpace_blank {w : Str} (h : Blank w) (s : Str) : skipSpace (w ++ s) = skipSpace s := by
  unfold skipSpace
  induction w with
  | nil => rfl
  | cons c w ih =>
    rw [List.cons_append, List.dropWhile_cons, if_pos (goSpace_iff.mpr (h c (by simp)))]
    exact ih fun d hd => h d (by simp [hd])

theorem skipSpace_cons {c : UInt8} (h : goSpace c = false) (s : Str) : skipSpace (c :: s) = c :: s := by
  unfold skipSpace
  rw [List.dropWhile_cons, h]
  rfl

theorem goHex_of_lookup {c : UInt8} {d : Nat} (h : hexDigits.lookup c = some d) : goHex c = true := by
  have key : ∀ c : UInt8, (hexDigits.lookup c).isSome = true → goHex c = true := byte_forall (by decide +kernel)
  exact key c (by rw [h]; rfl)

theorem goHex_of_hex4 {a b c d : UInt8} {r : Nat} (h : hex4 a b c d = some r) : goHex a = true ∧ goHex b = true ∧ goHex c = true ∧ goHex d = true := by
  unfold hex4 at h
  rcases ha : hexDigits.lookup a with _ | a' <;> rw [ha] at h
  · exact absurd h (by simp)
  rcases hb : hexDigits.lookup b with _ | b' <;> rw [hb] at h
  · exact absurd h (by simp)
  rcases hc : hexDigits.lookup c with _ | c' <;> rw [hc] at h
  · exact absurd h (by simp)
  rcases hd : hexDigits.lookup d with _ | d' <;> rw [hd] at h
  · exact absurd h (by simp)
  exact ⟨goHex_of_lookup ha, goHex_of_lookup hb, goHex_of_lookup hc, goHex_of_lookup hd⟩

theorem scanLit_json {lit v : Str} (h : JsonString lit v) (rest : Str) : scanLit (lit ++ c!"\"" :: rest) = some (lit, rest) := by
  induction h with
  | nil => rw [List.nil_append, scanLit.eq_def]; rfl
  | @char c lit v hq hb hc _ ih =>
    rw [List.cons_append, scanLit.eq_def]
    simp only
    rw [if_neg hq, if_neg hb, if_neg (by rw [UInt8.not_lt]; exact hc), ih]
    rfl
  | @short e c lit v he _ ih =>
    have key : ∀ p ∈ shortEscapes, p.1 ≠ c!"u" ∧ p.1 ∈ b!"bfnrt\\/\"" := by decide
    obtain ⟨k1, k2⟩ := key _ he
    rw [List.cons_append, List.cons_append, scanLit.eq_def]
    simp only
    rw [if_neg (by decide), if_pos (by simp)]
    rw [if_neg k1, if_pos k2, ih]
    rfl
  | @unicode h1 h2 h3 h4 r lit v hx hs _ ih =>
    obtain ⟨g1, g2, g3, g4⟩ := goHex_of_hex4 hx
    simp only [List.cons_append]
    rw [scanLit.eq_def]
    simp only
    rw [if_neg (by decide), if_pos (by simp)]
    simp only [if_true, g1, g2, g3, g4, Bool.and_self, ih, Option.map_some]
  | @pair h1 h2 h3 h4 l1 l2 l3 l4 hi lo lit v hh hl _ _ _ ih =>
    obtain ⟨g1, g2, g3, g4⟩ := goHex_of_hex4 hh
    obtain ⟨k1, k2, k3, k4⟩ := goHex_of_hex4 hl
    simp only [List.cons_append]
    rw [scanLit.eq_def]
    simp only
    rw [if_neg (by decide), if_pos (by simp)]
    simp only [if_true, g1, g2, g3, g4, Bool.and_self]
    rw [scanLit.eq_def]
    simp only
    rw [if_neg (by decide), if_pos (by simp)]
    simp only [if_true, k1, k2, k3, k4, Bool.and_self, ih, Option.map_some]

/-- The bytes that do not continue a number. -/
def NumStop (s : Str) : Prop := ∀ c, s.head? = some c → ¬ (c!"0" ≤ c ∧ c ≤ c!"9") ∧ c ≠ c!"." ∧ c ≠ c!"e" ∧ c ≠ c!"E"

theorem spanDigits_append {d s : Str} (hd : ∀ c ∈ d, c!"0" ≤ c ∧ c ≤ c!"9") (hs : ∀ c, s.head? = some c → ¬ (c!"0" ≤ c ∧ c ≤ c!"9")) : spanDigits (d ++ s) = (d, s) := by
  unfold spanDigits
  induction d with
  | nil =>
    cases s with
    | nil => rfl
    | cons c s => simp [hs c rfl]
  | cons c d ih =>
    have h := ih fun x hx => hd x (by simp [hx])
    rw [Prod.mk.injEq] at h
    have hc := hd c (by simp)
    simp only [List.cons_append, List.takeWhile_cons, List.dropWhile_cons, hc, and_self, decide_true, if_true, h.1, h.2]

theorem scanNumber_json {t rest : Str} (h : JsonNumber t) (hs : NumStop rest) : scanNumber (t ++ rest) = some (t, rest) := by
  obtain ⟨minus, int, frac, exp, rfl, hm, ⟨hi, hz⟩, hf, he⟩ := h
  have hexp : scanExponent (exp ++ rest) = some (exp, rest) := by
    rcases he with rfl | ⟨e, sign, d, rfl, hee, hsign, hd⟩
    · rw [List.nil_append]
      cases rest with
      | nil => rfl
      | cons c rest =>
        have := hs c rfl
        simp only [scanExponent]
        rw [if_neg (by simp [this])]
    · have hsp := spanDigits_append (s := rest) hd.2 fun c hc => (hs c hc).1
      obtain ⟨x, d', rfl⟩ := List.exists_cons_of_ne_nil hd.1
      have hx := hd.2 x (by simp)
      simp only [List.cons_append, scanExponent]
      rw [if_pos hee]
      rcases hsign with rfl | rfl | rfl
      · have : x ≠ c!"+" ∧ x ≠ c!"-" := by
          constructor <;> rintro rfl <;> revert hx <;> decide
        simp only [List.nil_append, List.cons_append]
        rw [List.cons_append] at hsp
        rw [if_neg (show ¬ (x = c!"+" ∨ x = c!"-") from fun h => h.elim this.1 this.2)]
        simp only [hsp]
        simp
      · rw [List.cons_append] at hsp
        simp only [List.nil_append, List.cons_append]
        simp only [true_or, if_true, hsp]
        simp
      · rw [List.cons_append] at hsp
        simp only [List.nil_append, List.cons_append]
        simp only [or_true, if_true, hsp]
        simp
  have hstop : ∀ c, (exp ++ rest).head? = some c → ¬ (c!"0" ≤ c ∧ c ≤ c!"9") ∧ c ≠ c!"." := by
    intro c hc
    rcases he with rfl | ⟨e, sign, d, rfl, hee, _⟩
    · exact ⟨(hs c hc).1, (hs c hc).2.1⟩
    · cases hc
      rcases hee with rfl | rfl <;> decide
  have hfrac : scanFraction (frac ++ (exp ++ rest)) = some (frac, exp ++ rest) := by
    rcases hf with rfl | ⟨d, rfl, hd⟩
    · rw [List.nil_append]
      generalize exp ++ rest = r at *
      cases r with
      | nil => rfl
      | cons c r =>
        simp only [scanFraction]
        rw [if_neg (hstop c rfl).2]
    · have hsp := spanDigits_append (s := exp ++ rest) hd.2 fun c hc => (hstop c hc).1
      obtain ⟨x, d', rfl⟩ := List.exists_cons_of_ne_nil hd.1
      simp only [List.cons_append, scanFraction, if_true] at hsp ⊢
      simp only [hsp]
      simp
  have hstop2 : ∀ c, (frac ++ (exp ++ rest)).head? = some c → ¬ (c!"0" ≤ c ∧ c ≤ c!"9") := by
    intro c hc
    rcases hf with rfl | ⟨d, rfl, _⟩
    · exact (hstop c hc).1
    · cases hc; decide
  obtain ⟨x, int', rfl⟩ := List.exists_cons_of_ne_nil hi.1
  have hx := hi.2 x (by simp)
  have hint : scanInteger (x :: int' ++ (frac ++ (exp ++ rest))) = some (x :: int', frac ++ (exp ++ rest)) := by
    simp only [List.cons_append, scanInteger]
    rcases hz with hz | hz
    · cases hz; simp
    · have hx0 : x ≠ c!"0" := by rintro rfl; simp at hz
      have hx1 : c!"1" ≤ x ∧ x ≤ c!"9" := by
        refine ⟨?_, hx.2⟩
        have h1 := UInt8.le_iff_toNat_le.mp hx.1
        have h2 : x.toNat ≠ 48 := fun e => hx0 (UInt8.toNat_inj.mp e)
        rw [UInt8.le_iff_toNat_le]
        show 49 ≤ x.toNat
        have : 48 ≤ x.toNat := h1
        omega
      rw [if_neg hx0, if_pos hx1, spanDigits_append (fun c hc => hi.2 c (by simp [hc])) hstop2]
  have hxm : x ≠ c!"-" := by rintro rfl; revert hx; decide
  unfold scanNumber
  rcases hm with rfl | rfl
  · simp only [List.nil_append, List.append_assoc, List.cons_append] at hint ⊢
    rw [if_neg hxm]
    simp only [hint, Option.bind_eq_bind, Option.bind_some, hfrac, hexp, List.nil_append, List.cons_append]
  · simp only [List.nil_append, List.append_assoc, List.cons_append] at hint ⊢
    simp only [if_true, hint, Option.bind_eq_bind, Option.bind_some, hfrac, hexp, List.nil_append, List.cons_append]

mutual

/-- A value as it is scanned. -/
def rawOf : Json → Raw
  | .word w => .literal w.text
  | .number t => .literal t
  | .string lit => .literal (c!"\"" :: (lit ++ [c!"\""]))
  | .array l => .array (rawsOf l)
  | .object ms => .object (rawMembers ms)

def rawsOf : List Json → List Raw
  | [] => []
  | j :: l => rawOf j :: rawsOf l

def rawMembers : List (Str × Json) → List (Str × Raw)
  | [] => []
  | (lit, j) :: l => (c!"\"" :: (lit ++ [c!"\""]), rawOf j) :: rawMembers l

end

theorem numStop_of {c : UInt8} {s : Str} (h : ¬ (c!"0" ≤ c ∧ c ≤ c!"9") ∧ c ≠ c!"." ∧ c ≠ c!"e" ∧ c ≠ c!"E") : NumStop (c :: s) := by
  intro d hd; cases hd; exact h

theorem numStop_blank {w : Str} (hw : Blank w) {s : Str} (hs : NumStop s) : NumStop (w ++ s) := by
  cases w with
  | nil => exact hs
  | cons c w =>
    apply numStop_of
    rcases hw c (by simp) with rfl | rfl | rfl | rfl <;> decide

theorem number_head {t : Str} (h : JsonNumber t) : ∃ c t', t = c :: t' ∧ (c = c!"-" ∨ (c!"0" ≤ c ∧ c ≤ c!"9")) := by
  obtain ⟨minus, int, frac, exp, rfl, hm, ⟨hi, _⟩, _, _⟩ := h
  rcases hm with rfl | rfl
  · obtain ⟨x, int', rfl⟩ := List.exists_cons_of_ne_nil hi.1
    exact ⟨x, _, rfl, .inr (hi.2 x (by simp))⟩
  · exact ⟨_, _, rfl, .inl rfl⟩

theorem digit_head {c : UInt8} (h : c = c!"-" ∨ (c!"0" ≤ c ∧ c ≤ c!"9")) :
    goSpace c = false ∧ c ≠ c!"{" ∧ c ≠ c!"[" ∧ c ≠ c!"\"" ∧ c ≠ c!"t" ∧ c ≠ c!"f" ∧ c ≠ c!"n" ∧ c ≠ c!"]" ∧ c ≠ c!"}" := by
  have key : ∀ c : UInt8, c = c!"-" ∨ (c!"0" ≤ c ∧ c ≤ c!"9") →
      goSpace c = false ∧ c ≠ c!"{" ∧ c ≠ c!"[" ∧ c ≠ c!"\"" ∧ c ≠ c!"t" ∧ c ≠ c!"f" ∧ c ≠ c!"n" ∧ c ≠ c!"]" ∧ c ≠ c!"}" := byte_forall (by decide +kernel)
  exact key c h

/-- The first byte of a value. -/
theorem writes_head {j : Json} {t : Str} (h : Writes JsonNumber j t) : ∃ c t', t = c :: t' ∧ goSpace c = false ∧ c ≠ c!"]" ∧ c ≠ c!"}" := by
  cases h with
  | word w => cases w <;> exact ⟨_, _, rfl, by decide⟩
  | number hn =>
    obtain ⟨c, t', rfl, hc⟩ := number_head hn
    obtain ⟨h1, _, _, _, _, _, _, h2, h3⟩ := digit_head hc
    exact ⟨c, t', rfl, h1, h2, h3⟩
  | string _ => exact ⟨_, _, rfl, by decide⟩
  | array _ => exact ⟨_, _, rfl, by decide⟩
  | object _ => exact ⟨_, _, rfl, by decide⟩

theorem skipSpace_writes {j : Json} {t : Str} (h : Writes JsonNumber j t) (s : Str) : skipSpace (t ++ s) = t ++ s := by
  obtain ⟨c, t', rfl, hc, _⟩ := writes_head h
  exact skipSpace_cons hc _

theorem scanWord_eq (word rest : Str) : scanWord word (word ++ rest) = some (.literal word, rest) := by
  unfold scanWord
  rw [if_pos (by simp), List.drop_left]

theorem scanElements_head {j : Json} {l : List Json} {u : Str} (h : WritesElements JsonNumber (j :: l) u) (rest : Str) :
    ∃ d s, skipSpace (u ++ rest) = d :: s ∧ d ≠ c!"]" ∧ d ≠ c!"}" :=
  match h with
  | .last hw hj hw' => by
    obtain ⟨c, t', e, hc, h1, h2⟩ := writes_head hj
    subst e
    rw [List.append_assoc, skipSpace_blank hw, List.cons_append, List.cons_append, skipSpace_cons hc]
    exact ⟨_, _, rfl, h1, h2⟩
  | .cons hw hj hw' hu => by
    obtain ⟨c, t', e, hc, h1, h2⟩ := writes_head hj
    subst e
    rw [List.append_assoc, skipSpace_blank hw, List.cons_append, List.cons_append, skipSpace_cons hc]
    exact ⟨_, _, rfl, h1, h2⟩

theorem scanMembers_head {m : Str × Json} {l : List (Str × Json)} {u : Str} (h : WritesMembers JsonNumber (m :: l) u) (rest : Str) :
    ∃ s, skipSpace (u ++ rest) = c!"\"" :: s :=
  match h with
  | .last hw _ _ _ _ _ => by
    rw [List.append_assoc, skipSpace_blank hw, List.cons_append, skipSpace_cons (by decide)]
    exact ⟨_, rfl⟩
  | .cons hw _ _ _ _ _ _ => by
    rw [List.append_assoc, skipSpace_blank hw, List.cons_append, skipSpace_cons (by decide)]
    exact ⟨_, rfl⟩

mutual

theorem scanValue_writes {j : Json} {t : Str} (h : Writes JsonNumber j t) (fuel depth : Nat) (rest : Str) (hf : t.length ≤ fuel) (hd : Nesting depth j)
    (hs : ∀ n, j = .number n → NumStop rest) : scanValue fuel depth (t ++ rest) = some (rawOf j, rest) :=
  match h with
  | .word w => by
    cases fuel with
    | zero => cases w <;> exact absurd hf (by decide)
    | succ fuel =>
      cases w with
      | null => exact scanWord_eq b!"null" rest
      | true => exact scanWord_eq b!"true" rest
      | false => exact scanWord_eq b!"false" rest
  | .number hn => by
    obtain ⟨c, t', e, hc⟩ := number_head hn
    obtain ⟨_, g1, g2, g3, g4, g5, g6, _⟩ := digit_head hc
    cases fuel with
    | zero => rw [e] at hf; exact absurd hf (by simp)
    | succ fuel =>
      have := scanNumber_json hn (hs _ rfl)
      rw [e, List.cons_append] at this ⊢
      simp only [scanValue, g1, g2, g3, g4, g5, g6, if_false, this, Option.map_some, rawOf]
  | .string hl => by
    obtain ⟨v, hv⟩ := hl
    cases fuel with
    | zero => exact absurd hf (by simp)
    | succ fuel =>
      have := scanLit_json hv rest
      simp only [List.cons_append, List.append_assoc, List.nil_append, scanValue]
      rw [if_neg (by decide), if_neg (by decide), if_pos (by simp), this]
      rfl
  | .array (l := l) (t := u) hu => by
    cases hd with
    | @array n _ hd =>
    cases fuel with
    | zero => exact absurd hf (by simp)
    | succ fuel =>
      simp only [List.cons_append, List.append_assoc, List.nil_append, scanValue]
      rw [if_neg (by decide), if_pos (by simp), if_neg (by omega)]
      cases l with
      | nil =>
        cases hu with
        | empty hw =>
          rw [skipSpace_blank hw, skipSpace_cons (by decide)]
          simp only [if_true]
          rfl
      | cons j l =>
        obtain ⟨d, s, e, h1, h2⟩ := scanElements_head hu (c!"]" :: rest)
        have := scanElements_writes hu (by simp) fuel n rest (by simp at hf; omega) hd
        rw [e] at this ⊢
        simp only
        rw [if_neg h1, Nat.add_sub_cancel, this]
        rfl
  | .object (l := ms) (t := u) hu => by
    cases hd with
    | @object n _ hd =>
    cases fuel with
    | zero => exact absurd hf (by simp)
    | succ fuel =>
      simp only [List.cons_append, List.append_assoc, List.nil_append, scanValue]
      rw [if_pos (by simp), if_neg (by omega)]
      cases ms with
      | nil =>
        cases hu with
        | empty hw =>
          rw [skipSpace_blank hw, skipSpace_cons (by decide)]
          simp only [if_true]
          rfl
      | cons m l =>
        obtain ⟨s, e⟩ := scanMembers_head hu (c!"}" :: rest)
        have := scanMembers_writes hu (by simp) fuel n rest (by simp at hf; omega) hd
        rw [e] at this ⊢
        simp only
        rw [if_neg (by decide), Nat.add_sub_cancel, this]
        rfl

theorem scanElements_writes {l : List Json} {u : Str} (h : WritesElements JsonNumber l u) (hl : l ≠ []) (fuel depth : Nat) (rest : Str) (hf : u.length + 1 ≤ fuel)
    (hd : ∀ k ∈ l, Nesting depth k) : scanElements fuel depth (skipSpace (u ++ c!"]" :: rest)) = some (rawsOf l, rest) :=
  match h with
  | .empty _ => absurd rfl hl
  | .last (t := t) (w' := w') hw hj hw' => by
    cases fuel with
    | zero => exact absurd hf (by simp)
    | succ fuel =>
      rw [List.append_assoc, skipSpace_blank hw, List.append_assoc, skipSpace_writes hj, scanElements,
        scanValue_writes hj fuel depth (w' ++ c!"]" :: rest) (by simp at hf; omega) (hd _ (by simp)) fun _ _ => numStop_blank hw' (numStop_of (by decide))]
      simp only
      rw [skipSpace_blank hw', skipSpace_cons (by decide)]
      simp only [if_true]
      rfl
  | .cons (k := k) (l := l) (t := t) (w' := w') (u := u) hw hj hw' hu => by
    cases fuel with
    | zero => exact absurd hf (by simp)
    | succ fuel =>
      simp only [List.append_assoc, List.cons_append]
      rw [skipSpace_blank hw, skipSpace_writes hj, scanElements,
        scanValue_writes hj fuel depth (w' ++ c!"," :: (u ++ c!"]" :: rest)) (by simp at hf; omega) (hd _ (by simp))
          fun _ _ => numStop_blank hw' (numStop_of (by decide))]
      simp only
      rw [skipSpace_blank hw', skipSpace_cons (by decide)]
      simp only
      rw [if_neg (by decide), if_pos (by simp), scanElements_writes hu (by simp) fuel depth rest (by simp at hf; omega) fun k hk => hd k (by simp [hk])]
      rfl

theorem scanMembers_writes {l : List (Str × Json)} {u : Str} (h : WritesMembers JsonNumber l u) (hl : l ≠ []) (fuel depth : Nat) (rest : Str)
    (hf : u.length + 1 ≤ fuel) (hd : ∀ k ∈ l, Nesting depth k.2) :
    scanMembers fuel depth (skipSpace (u ++ c!"}" :: rest)) = some (rawMembers l, rest) :=
  match h with
  | .empty _ => absurd rfl hl
  | .last (lit := lit) (w1 := w1) (w2 := w2) (t := t) (w' := w') hw hl hw1 hw2 hj hw' => by
    obtain ⟨v, hv⟩ := hl
    cases fuel with
    | zero => exact absurd hf (by simp)
    | succ fuel =>
      simp only [List.append_assoc, List.cons_append]
      rw [skipSpace_blank hw, skipSpace_cons (by decide), scanMembers]
      rw [if_neg (by simp), scanLit_json hv]
      simp only
      rw [skipSpace_blank hw1, skipSpace_cons (by decide)]
      simp only
      rw [if_neg (by simp), skipSpace_blank hw2, skipSpace_writes hj,
        scanValue_writes hj fuel depth (w' ++ c!"}" :: rest) (by simp at hf; omega) (hd (lit, _) (by simp)) fun _ _ => numStop_blank hw' (numStop_of (by decide))]
      simp only
      rw [skipSpace_blank hw', skipSpace_cons (by decide)]
      simp only [if_true]
      rfl
  | .cons (lit := lit) (w1 := w1) (w2 := w2) (t := t) (w' := w') (u := u) hw hl hw1 hw2 hj hw' hu => by
    obtain ⟨v, hv⟩ := hl
    cases fuel with
    | zero => exact absurd hf (by simp)
    | succ fuel =>
      simp only [List.append_assoc, List.cons_append]
      rw [skipSpace_blank hw, skipSpace_cons (by decide), scanMembers]
      rw [if_neg (by simp), scanLit_json hv]
      simp only
      rw [skipSpace_blank hw1, skipSpace_cons (by decide)]
      simp only
      rw [if_neg (by simp), skipSpace_blank hw2, skipSpace_writes hj,
        scanValue_writes hj fuel depth (w' ++ c!"," :: (u ++ c!"}" :: rest)) (by simp at hf; omega) (hd (lit, _) (by simp))
          fun _ _ => numStop_blank hw' (numStop_of (by decide))]
      simp only
      rw [skipSpace_blank hw', skipSpace_cons (by decide)]
      simp only
      rw [if_neg (by decide), if_pos (by simp), scanMembers_writes hu (by simp) fuel depth rest (by simp at hf; omega) fun k hk => hd k (by simp [hk])]
      rfl

end

/-! ## Unquoting -/

theorem encodeRune4_eq {r : Nat} (h : ¬ Surrogate r) : encodeRune4 r = utf8 r := by
  unfold encodeRune4
  by_cases h1 : r < 0x10000
  · rw [if_pos h1, encodeRune_eq h1, runeBytes, if_neg h]
  · rw [if_neg h1, utf8, if_neg (by omega), if_neg (by omega), if_neg (by omega)]

theorem ofNat_le {a b : Nat} (ha : a < 256) (hb : b < 256) : (UInt8.ofNat a ≤ UInt8.ofNat b) ↔ a ≤ b := by
  rw [UInt8.le_iff_toNat_le, UInt8.toNat_ofNat', UInt8.toNat_ofNat']
  omega

theorem ofNat_eq {a b : Nat} (ha : a < 256) (hb : b < 256) : (UInt8.ofNat a = UInt8.ofNat b) ↔ a = b := by
  rw [← UInt8.toNat_inj, UInt8.toNat_ofNat', UInt8.toNat_ofNat']
  omega

theorem toNat_byte {a : Nat} (ha : a < 256) : (UInt8.ofNat a).toNat = a := by
  rw [UInt8.toNat_ofNat']; omega

theorem decodeRune_utf8 {r : Nat} (h : r < 0x110000) (hs : ¬ Surrogate r) (s : Str) : decodeRune (utf8 r ++ s) = (r, (utf8 r).length) := by
  unfold Surrogate at hs
  unfold utf8
  split
  · rename_i h1
    simp only [List.cons_append, List.nil_append, decodeRune]
    rw [if_pos (by rw [UInt8.lt_iff_toNat_lt, toNat_byte (by omega)]; show r < 128; omega), toNat_byte (by omega)]
    rfl
  · rename_i h1
    split
    · rename_i h2
      simp only [List.cons_append, List.nil_append, decodeRune]
      have e1 : (UInt8.ofNat (0b11000000 + r / 0x40)).toNat = 192 + r / 64 := toNat_byte (by omega)
      have e2 : (UInt8.ofNat (0b10000000 + r % 0x40)).toNat = 128 + r % 64 := toNat_byte (by omega)
      generalize UInt8.ofNat (0b11000000 + r / 0x40) = a at *
      generalize UInt8.ofNat (0b10000000 + r % 0x40) = b at *
      simp only [UInt8.lt_iff_toNat_lt, UInt8.le_iff_toNat_le, e1, e2, UInt8.reduceToNat]
      rw [if_neg (by omega), if_pos (by omega), if_pos (by rw [decide_eq_true_eq]; omega)]
      refine Prod.ext ?_ rfl
      show (192 + r / 64 - 192) * 64 + (128 + r % 64 - 128) = r
      omega
    · rename_i h2
      split
      · rename_i h3
        simp only [List.cons_append, List.nil_append, decodeRune]
        have e1 : (UInt8.ofNat (0b11100000 + r / 0x1000)).toNat = 224 + r / 4096 := toNat_byte (by omega)
        have e2 : (UInt8.ofNat (0b10000000 + r / 0x40 % 0x40)).toNat = 128 + r / 64 % 64 := toNat_byte (by omega)
        have e3 : (UInt8.ofNat (0b10000000 + r % 0x40)).toNat = 128 + r % 64 := toNat_byte (by omega)
        generalize UInt8.ofNat (0b11100000 + r / 0x1000) = a at *
        generalize UInt8.ofNat (0b10000000 + r / 0x40 % 0x40) = b at *
        generalize UInt8.ofNat (0b10000000 + r % 0x40) = c at *
        have ha : (a = 0xE0) ↔ a.toNat = 224 := UInt8.toNat_inj.symm
        have ha' : (a = 0xED) ↔ a.toNat = 237 := UInt8.toNat_inj.symm
        simp only [UInt8.lt_iff_toNat_lt, UInt8.le_iff_toNat_le, e1, e2, e3, ha, ha', UInt8.reduceToNat]
        rw [if_neg (by omega), if_neg (by omega), if_pos (by omega), if_pos]
        · refine Prod.ext ?_ rfl
          show ((224 + r / 4096 - 224) * 64 + (128 + r / 64 % 64 - 128)) * 64 + (128 + r % 64 - 128) = r
          omega
        · rw [Bool.and_eq_true, decide_eq_true_eq]
          refine ⟨?_, by omega⟩
          split
          · rw [decide_eq_true_eq]; omega
          · split <;> rw [decide_eq_true_eq] <;> omega
      · rename_i h3
        simp only [List.cons_append, List.nil_append, decodeRune]
        have e1 : (UInt8.ofNat (0b11110000 + r / 0x40000)).toNat = 240 + r / 262144 := toNat_byte (by omega)
        have e2 : (UInt8.ofNat (0b10000000 + r / 0x1000 % 0x40)).toNat = 128 + r / 4096 % 64 := toNat_byte (by omega)
        have e3 : (UInt8.ofNat (0b10000000 + r / 0x40 % 0x40)).toNat = 128 + r / 64 % 64 := toNat_byte (by omega)
        have e4 : (UInt8.ofNat (0b10000000 + r % 0x40)).toNat = 128 + r % 64 := toNat_byte (by omega)
        generalize UInt8.ofNat (0b11110000 + r / 0x40000) = a at *
        generalize UInt8.ofNat (0b10000000 + r / 0x1000 % 0x40) = b at *
        generalize UInt8.ofNat (0b10000000 + r / 0x40 % 0x40) = c at *
        generalize UInt8.ofNat (0b10000000 + r % 0x40) = d at *
        have ha : (a = 0xF0) ↔ a.toNat = 240 := UInt8.toNat_inj.symm
        have ha' : (a = 0xF4) ↔ a.toNat = 244 := UInt8.toNat_inj.symm
        simp only [UInt8.lt_iff_toNat_lt, UInt8.le_iff_toNat_le, e1, e2, e3, e4, ha, ha', UInt8.reduceToNat]
        rw [if_neg (by omega), if_neg (by omega), if_neg (by omega), if_pos (by omega), if_pos]
        · refine Prod.ext ?_ rfl
          show (((240 + r / 262144 - 240) * 64 + (128 + r / 4096 % 64 - 128)) * 64 + (128 + r / 64 % 64 - 128)) * 64 + (128 + r % 64 - 128) = r
          omega
        · rw [Bool.and_eq_true, Bool.and_eq_true, decide_eq_true_eq, decide_eq_true_eq]
          refine ⟨⟨?_, by omega⟩, by omega⟩
          split
          · rw [decide_eq_true_eq]; omega
          · split <;> rw [decide_eq_true_eq] <;> omega

theorem utf8_high {r : Nat} (h : r < 0x110000) (h1 : 0x80 ≤ r) : utf8 r ≠ [] ∧ ∀ c ∈ utf8 r, 0x80 ≤ c := by
  unfold utf8
  rw [if_neg (by omega)]
  have key : ∀ n, n < 128 → (0x80 : UInt8) ≤ UInt8.ofNat (128 + n) := by
    intro n hn
    rw [UInt8.le_iff_toNat_le, toNat_byte (by omega)]
    show 128 ≤ _
    omega
  have k2 := key (64 + r / 64)
  have k3 := key (96 + r / 4096)
  have k4 := key (112 + r / 262144)
  have c1 := key (r % 64) (by omega)
  have c2 := key (r / 64 % 64) (by omega)
  have c3 := key (r / 4096 % 64) (by omega)
  simp only [← Nat.add_assoc, Nat.reduceAdd] at k2 k3 k4
  split
  · refine ⟨by simp, ?_⟩
    simp only [List.mem_cons, List.not_mem_nil, or_false]
    rintro c (rfl | rfl)
    · exact k2 (by omega)
    · exact c1
  · split
    · refine ⟨by simp, ?_⟩
      simp only [List.mem_cons, List.not_mem_nil, or_false]
      rintro c (rfl | rfl | rfl)
      · exact k3 (by omega)
      · exact c2
      · exact c1
    · refine ⟨by simp, ?_⟩
      simp only [List.mem_cons, List.not_mem_nil, or_false]
      rintro c (rfl | rfl | rfl | rfl)
      · exact k4 (by omega)
      · exact c3
      · exact c2
      · exact c1

theorem jsonString_high {a lit v : Str} (ha : ∀ c ∈ a, 0x80 ≤ c) (h : JsonString (a ++ lit) v) : ∃ v', v = a ++ v' ∧ JsonString lit v' := by
  induction a generalizing v with
  | nil => exact ⟨v, rfl, h⟩
  | cons c a ih =>
    have hc := ha c (by simp)
    have hne : c ≠ c!"\\" := by rintro rfl; exact absurd hc (by decide)
    rw [List.cons_append] at h
    generalize hg : c :: (a ++ lit) = l at h
    cases h with
    | nil => cases hg
    | char hq hb hc h =>
      cases hg
      obtain ⟨v', rfl, h'⟩ := ih (fun d hd => ha d (by simp [hd])) h
      exact ⟨v', rfl, h'⟩
    | short => exact absurd (List.cons.inj hg).1 hne
    | unicode => exact absurd (List.cons.inj hg).1 hne
    | pair => exact absurd (List.cons.inj hg).1 hne

theorem utf8Text_ascii {c : UInt8} {s : Str} (h : Utf8Text (c :: s)) (hc : c < 0x80) : Utf8Text s := by
  obtain ⟨rs, hr, e⟩ := h
  cases rs with
  | nil => cases e
  | cons r rs =>
    obtain ⟨hr1, hr2⟩ := hr r (by simp)
    by_cases h1 : 0x80 ≤ r
    · obtain ⟨hne, hh⟩ := utf8_high hr1 h1
      obtain ⟨a, l, ea⟩ := List.exists_cons_of_ne_nil hne
      rw [List.flatMap_cons, ea] at e
      cases e
      have := hh c (by rw [ea]; simp)
      exact absurd hc (by rw [UInt8.not_lt]; exact this)
    · rw [List.flatMap_cons, utf8, if_pos (by omega)] at e
      cases e
      exact ⟨rs, fun x hx => hr x (by simp [hx]), rfl⟩

theorem utf8Text_high {c : UInt8} {s : Str} (h : Utf8Text (c :: s)) (hc : ¬ c < 0x80) :
    ∃ r s', r < 0x110000 ∧ ¬ Surrogate r ∧ 0x80 ≤ r ∧ c :: s = utf8 r ++ s' ∧ Utf8Text s' := by
  obtain ⟨rs, hr, e⟩ := h
  cases rs with
  | nil => cases e
  | cons r rs =>
    obtain ⟨hr1, hr2⟩ := hr r (by simp)
    refine ⟨r, rs.flatMap utf8, hr1, hr2, ?_, by rw [e, List.flatMap_cons], rs, fun x hx => hr x (by simp [hx]), rfl⟩
    refine Nat.le_of_not_lt fun h1 => hc ?_
    rw [List.flatMap_cons, utf8, if_pos (by omega)] at e
    cases e
    rw [UInt8.lt_iff_toNat_lt, toNat_byte (by omega)]
    exact h1

theorem hex_ascii {c : UInt8} (h : goHex c = true) : c < 0x80 := by
  have key : ∀ c : UInt8, goHex c = true → c < 0x80 := byte_forall (by decide +kernel)
  exact key c h

theorem unquoteLoop_json (fuel : Nat) : ∀ {lit v : Str}, JsonString lit v → Utf8Text lit → lit.length < fuel → unquoteLoop fuel lit = some v := by
  induction fuel with
  | zero => intro lit v _ _ h; exact absurd h (by omega)
  | succ fuel ih =>
    intro lit v hj hu hf
    cases hj with
    | nil => rfl
    | @char c lit v hq hb hc hj =>
      simp only [unquoteLoop]
      rw [if_neg hb, if_neg (by rintro (h | h); exact hq h; exact absurd h (by rw [UInt8.not_lt]; exact hc))]
      by_cases h80 : c < 0x80
      · rw [if_pos h80, ih hj (utf8Text_ascii hu h80) (by simp at hf; omega)]
        rfl
      · rw [if_neg h80]
        obtain ⟨r, s', hr, hrs, hr80, e, hu'⟩ := utf8Text_high hu h80
        obtain ⟨hne, hh⟩ := utf8_high hr hr80
        have hj' := JsonString.char hq hb hc hj
        rw [e] at hj'
        obtain ⟨v', ev, hv'⟩ := jsonString_high hh hj'
        rw [e, decodeRune_utf8 hr hrs, List.drop_left, ev, encodeRune4_eq hrs, ih hv' hu']
        · rfl
        · have h1 := congrArg List.length e
          have h2 := List.length_pos_iff.mpr hne
          simp at h1 hf
          omega
    | @short e c lit v he hj =>
      have key : ∀ p ∈ shortEscapes, p.1 ≠ c!"u" ∧ simpleEscape p.1 = some p.2 ∧ p.1 < 0x80 := by decide
      obtain ⟨k1, k2, k3⟩ := key _ he
      simp only [unquoteLoop, if_true]
      rw [if_neg k1, k2]
      simp only
      rw [ih hj (utf8Text_ascii (utf8Text_ascii hu (by decide)) k3) (by simp at hf; omega)]
      rfl
    | @unicode h1 h2 h3 h4 r lit v hx hs hj =>
      obtain ⟨g1, g2, g3, g4⟩ := goHex_of_hex4 hx
      have hu' := utf8Text_ascii (utf8Text_ascii (utf8Text_ascii (utf8Text_ascii (utf8Text_ascii (utf8Text_ascii hu (by decide)) (by decide)) (hex_ascii g1)) (hex_ascii g2)) (hex_ascii g3)) (hex_ascii g4)
      simp only [unquoteLoop, if_true, getu4, and_self, hexRune_eq, hx, List.drop_succ_cons, List.drop_zero]
      rw [if_neg (by unfold Surrogate at hs; omega), encodeRune4_eq hs, ih hj hu' (by simp at hf; omega)]
      rfl
    | @pair h1 h2 h3 h4 l1 l2 l3 l4 hi lo lit v hh hl hhi hlo hj =>
      obtain ⟨g1, g2, g3, g4⟩ := goHex_of_hex4 hh
      obtain ⟨k1, k2, k3, k4⟩ := goHex_of_hex4 hl
      have hu' := utf8Text_ascii (utf8Text_ascii (utf8Text_ascii (utf8Text_ascii (utf8Text_ascii (utf8Text_ascii hu (by decide)) (by decide)) (hex_ascii g1)) (hex_ascii g2)) (hex_ascii g3)) (hex_ascii g4)
      have hu'' := utf8Text_ascii (utf8Text_ascii (utf8Text_ascii (utf8Text_ascii (utf8Text_ascii (utf8Text_ascii hu' (by decide)) (by decide)) (hex_ascii k1)) (hex_ascii k2)) (hex_ascii k3)) (hex_ascii k4)
      simp only [unquoteLoop, if_true, getu4, and_self, hexRune_eq, hh, hl, List.drop_succ_cons, List.drop_zero]
      rw [if_pos (by omega), if_pos (by omega), encodeRune4_eq (by unfold Surrogate; omega), ih hj hu'' (by simp at hf; omega)]
      simp only [Option.map_some]
      rw [show (hi - 0xD800) * 0x400 + (lo - 0xDC00) + 0x10000 = 0x10000 + (hi - 0xD800) * 0x400 + (lo - 0xDC00) by omega]

theorem goUnquote_json {lit v : Str} (h : Utf8String lit v) : goUnquote (c!"\"" :: (lit ++ [c!"\""])) = some v := by
  unfold goUnquote
  rw [if_neg (by
    rw [← List.cons_append, List.getLast?_concat]
    simp)]
  rw [List.drop_one, List.tail_cons, List.dropLast_concat]
  exact unquoteLoop_json _ h.1 h.2 (by simp; omega)

end Verif
