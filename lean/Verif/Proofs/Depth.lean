import Verif.Model.Depth
import Verif.Spec.Depth
import Verif.Props.Accept

/-!
# The nesting of calls while a text is read
-/

namespace Verif

open Spec

/-- The calls on a stream. -/
def Prog.callsOn {σ : Type} : Prog σ → Bool → Str → Nat → Nat
  | .done _, _, _, d => d
  | .fail _, _, _, d => d
  | .timeout, _, _, d => d
  | .op o _ k, r, s, d =>
    if o.needsByte && !r then d else
    match o.stream s with
    | .ok a s => max d ((k a).callsOn o.readyAfter s (o.callsAfter d))
    | _ => d

theorem Prog.callsOn_ge {σ : Type} (prog : Prog σ) (r : Bool) (s : Str) (d : Nat) : d ≤ prog.callsOn r s d := by
  cases prog with
  | op o m k =>
    unfold Prog.callsOn
    split
    · exact Nat.le_refl _
    · split
      · exact Nat.le_max_left _ _
      · exact Nat.le_refl _
  | _ => exact Nat.le_refl _

/-- A decoder running on a parser nests as many calls as on the stream. -/
theorem Prog.calls_agrees {σ : Type} {size : Nat} (h0 : 0 < size) (prog : Prog σ) (fuel : Nat) (p : Parser) (ready : Bool) (d : Nat) (h : p.Ok)
    (hs : size ≤ p.buffer.length) (hf : p.work < fuel) (hfit : prog.Fits size p.rest) (hr : ready = true → p.tail < p.head)
    (hb : prog.stream ready p.rest ≠ .bad) : prog.calls fuel p d = prog.callsOn ready p.rest d := by
  induction prog generalizing p ready d with
  | done m => rfl
  | fail m => rfl
  | timeout => rfl
  | op o m k ih =>
    unfold Prog.Fits at hfit
    unfold Prog.stream at hb
    unfold Prog.calls Prog.callsOn
    by_cases hn : (o.needsByte && !ready) = true
    · rw [if_pos hn] at hb
      exact absurd rfl hb
    · rw [if_neg hn] at hb ⊢
      have hne : o.needsByte = true → p.tail < p.head := by
        intro hb
        rw [hb] at hn
        exact hr (by simpa using hn)
      have ha := o.run_agrees h0 fuel p h hs hf hfit.1 hne
      rcases hst : o.stream p.rest with ⟨a, s⟩ | _ | _
      · rw [hst] at ha hb
        obtain ⟨p', e1, e2, e3, e4, e5⟩ := ha
        have hfit' : (k a).Fits size s := by
          have := hfit.2
          rw [hst] at this
          exact this
        have := ih a p' o.readyAfter (o.callsAfter d) e2 e4 (by omega) (by rw [e3]; exact hfit') (fun hh => Op.run_ready e1 hh hne) (by rw [e3]; exact hb)
        rw [e1]
        simp only
        rw [this, e3]
      · rw [hst] at ha
        obtain ⟨p', e1, e2⟩ := ha
        rw [e1]
      · rw [hst] at hb
        exact absurd rfl hb

/-! ## Reading token by token -/

/-- With `d` brackets open, the tokens of the text up to `s'` leave `d'` open, and at most `m` were open at the same time. -/
inductive Scan : Nat → Str → Nat → Nat → Str → Prop
  | stop {d : Nat} {s : Str} : Scan d s d d s
  | space {d m d' : Nat} {c : UInt8} {s s' : Str} : isCharSpace c = true → Scan d s m d' s' → Scan d (c :: s) m d' s'
  | opening {d m d' : Nat} {c : UInt8} {s s' : Str} : symbolTable c = .arrayBegin ∨ symbolTable c = .objectBegin → Scan (d + 1) s m d' s' → Scan d (c :: s) (max d m) d' s'
  | closing {d m d' : Nat} {c : UInt8} {s s' : Str} : symbolTable c = .arrayEnd ∨ symbolTable c = .objectEnd → Scan (d - 1) s m d' s' → Scan d (c :: s) (max d m) d' s'
  | scalar {d m d' : Nat} {v : Loose} {t u s' : Str} : Begins v t u → v.type ≠ .arrayBegin → v.type ≠ .objectBegin → Scan d u m d' s' → Scan d t m d' s'

theorem Scan.ge {d m d' : Nat} {s s' : Str} (h : Scan d s m d' s') : d ≤ m := by
  induction h <;> omega

theorem begins_shorter {v : Loose} {t s : Str} (h : Begins v t s) (h1 : v.type ≠ .arrayBegin) (h2 : v.type ≠ .objectBegin) : s.length < t.length := by
  cases h with
  | word h =>
    rename_i t
    rw [List.length_append]
    rcases h with ⟨h, _⟩ | ⟨h, _⟩ <;> omega
  | number h =>
    obtain ⟨c, t', rfl, _⟩ := h
    simp
    omega
  | string h => simp; omega
  | array => exact absurd rfl h1
  | object => exact absurd rfl h2

theorem Scan.shorter {d m d' : Nat} {s s' : Str} (h : Scan d s m d' s') : s'.length ≤ s.length := by
  induction h with
  | stop => exact Nat.le_refl _
  | scalar hb h1 h2 _ ih => have := begins_shorter hb h1 h2; omega
  | _ => simp only [List.length_cons]; omega

theorem Scan.trans {d m d' m' d'' : Nat} {s s' s'' : Str} (h : Scan d s m d' s') (h' : Scan d' s' m' d'' s'') : Scan d s (max m m') d'' s'' := by
  induction h with
  | stop => rw [Nat.max_eq_right h'.ge]; exact h'
  | space hc _ ih => exact .space hc (ih h')
  | opening hc _ ih => rw [Nat.max_assoc]; exact .opening hc (ih h')
  | closing hc _ ih => rw [Nat.max_assoc]; exact .closing hc (ih h')
  | scalar hb h1 h2 _ ih => exact .scalar hb h1 h2 (ih h')

theorem Scan.unique {d m d' m2 d2 : Nat} {s s' : Str} (h : Scan d s m d' s') (h' : Scan d s m2 d2 s') : m = m2 ∧ d' = d2 := by
  have key : ∀ c : UInt8, isCharSpace c = true → symbolTable c ≠ .arrayBegin ∧ symbolTable c ≠ .objectBegin ∧ symbolTable c ≠ .arrayEnd ∧ symbolTable c ≠ .objectEnd :=
    byte_forall (by decide +kernel)
  have hend : ∀ v : Loose, v.type ≠ .arrayEnd ∧ v.type ≠ .objectEnd := by
    intro v
    cases v <;> simp only [Loose.type] <;> (try split) <;> exact ⟨by simp, by simp⟩
  induction h generalizing m2 d2 with
  | stop =>
    cases h' with
    | stop => exact ⟨rfl, rfl⟩
    | space _ h => have := h.shorter; simp at this
    | opening _ h => have := h.shorter; simp at this
    | closing _ h => have := h.shorter; simp at this
    | scalar hb h1 h2 h => have := h.shorter; have := begins_shorter hb h1 h2; omega
  | space hc h ih =>
    cases h' with
    | stop => have := h.shorter; simp at this
    | space _ h => exact ih h
    | opening hc' _ => exact absurd hc' (by simp [key _ hc])
    | closing hc' _ => exact absurd hc' (by simp [key _ hc])
    | scalar hb h1 h2 _ =>
      obtain ⟨c', t', e, _, h3, _⟩ := begins_type hb
      injection e with e
      rw [← e, hc] at h3
      cases h3
  | opening hc h ih =>
    cases h' with
    | stop => have := h.shorter; simp at this
    | space hc' _ => exact absurd hc (by simp [key _ hc'])
    | opening _ h => obtain ⟨e1, e2⟩ := ih h; exact ⟨by rw [e1], e2⟩
    | closing hc' _ => rcases hc with h | h <;> rcases hc' with h' | h' <;> rw [h] at h' <;> cases h'
    | scalar hb h1 h2 _ =>
      obtain ⟨c', t', e, h3, _⟩ := begins_type hb
      injection e with e
      rw [← e] at h3
      rcases hc with h | h <;> rw [h] at h3
      · exact absurd h3.symm h1
      · exact absurd h3.symm h2
  | closing hc h ih =>
    cases h' with
    | stop => have := h.shorter; simp at this
    | space hc' _ => exact absurd hc (by simp [key _ hc'])
    | opening hc' _ => rcases hc with h | h <;> rcases hc' with h' | h' <;> rw [h] at h' <;> cases h'
    | closing _ h => obtain ⟨e1, e2⟩ := ih h; exact ⟨by rw [e1], e2⟩
    | scalar hb h1 h2 _ =>
      obtain ⟨c', t', e, h3, _⟩ := begins_type hb
      injection e with e
      rw [← e] at h3
      exact absurd hc (by simp [h3, hend])
  | scalar hb h1 h2 h ih =>
    obtain ⟨c', t', e, h3, h4, _⟩ := begins_type hb
    cases h' with
    | stop => have := h.shorter; have := begins_shorter hb h1 h2; omega
    | space hc' _ =>
      injection e with e
      rw [← e, hc'] at h4
      cases h4
    | opening hc _ =>
      injection e with e
      rw [← e] at h3
      rcases hc with h | h <;> rw [h] at h3
      · exact absurd h3.symm h1
      · exact absurd h3.symm h2
    | closing hc _ =>
      injection e with e
      rw [← e] at h3
      exact absurd hc (by simp [h3, hend])
    | scalar hb' h1' h2' h' =>
      obtain ⟨_, e⟩ := begins_unique hb hb'
      subst e
      exact ih h'

/-! ## Programs read token by token -/

theorem Scan.spaces {w s : Str} (d : Nat) (h : LooseSpace w) : Scan d (w ++ s) d d s := by
  induction w with
  | nil => exact .stop
  | cons c w ih => exact .space (sep_loose h c (by simp)) (ih fun x hx => h x (by simp [hx]))

theorem Op.scan {o : Op} {s s' : Str} {a : o.Res} (d : Nat) (h : o.stream s = .ok a s') : Scan d s (max d (o.callsAfter d)) (o.callsAfter d) s' := by
  cases o with
  | skipWhitespace =>
    obtain ⟨w, rfl, hw⟩ := loose_skipWhitespace h
    simpa [Op.callsAfter] using Scan.spaces d hw
  | current =>
    obtain ⟨rfl, _⟩ := loose_current h
    simpa [Op.callsAfter] using Scan.stop
  | consume t =>
    obtain ⟨c, rfl, hc⟩ := loose_consume h
    cases t with
    | objectBegin => exact .opening (.inr hc) .stop
    | arrayBegin => exact .opening (.inl hc) .stop
    | objectEnd => exact .closing (.inr hc) .stop
    | arrayEnd => exact .closing (.inl hc) .stop
  | readString =>
    obtain ⟨lit, rfl, hl⟩ := exact_readString.mp h
    simp only [Op.callsAfter, Nat.max_self]
    exact .scalar (.string hl) (by simp [Loose.type]) (by simp [Loose.type]) .stop
  | readNumber =>
    obtain ⟨rfl, h1, h2⟩ := exact_readNumber.mp h
    simp only [Op.callsAfter, Nat.max_self]
    exact .scalar (.number h1 h2) (by simp [Loose.type]) (by simp [Loose.type]) .stop
  | readWord w =>
    obtain ⟨rfl, h1, h2⟩ := exact_readWord.mp h
    simp only [Op.callsAfter, Nat.max_self]
    refine .scalar (.word ?_) (by simp only [Loose.type]; split <;> simp) (by simp only [Loose.type]; split <;> simp) .stop
    cases w with
    | null => exact .inl ⟨h1, .inl h2⟩
    | true => exact .inl ⟨h1, .inr h2⟩
    | false => exact .inr ⟨h1, h2⟩

theorem Prog.scan {σ : Type} (prog : Prog σ) {r r' : Bool} {s s' : Str} {v : σ} (d : Nat) (h : prog.stream r s = .ok v r' s') :
    ∃ d', Scan d s (prog.callsOn r s d) d' s' := by
  induction prog generalizing r s d with
  | done m =>
    injection h with _ _ h
    subst h
    exact ⟨d, .stop⟩
  | fail m => cases h
  | timeout => cases h
  | op o m k ih =>
    have hn : ¬ (o.needsByte && !r) = true := by
      intro hn
      simp only [Prog.stream, if_pos hn] at h
      cases h
    obtain ⟨a, s1, h1, h2⟩ := stream_op_ok h
    obtain ⟨d', hd⟩ := ih a (o.callsAfter d) h2
    refine ⟨d', ?_⟩
    unfold Prog.callsOn
    rw [if_neg hn, h1]
    have := (Op.scan d h1).trans hd
    rw [Nat.max_assoc, Nat.max_eq_right (Prog.callsOn_ge _ _ _ _)] at this
    exact this

/-! ## Values -/

mutual

theorem Scan.value : ∀ {v : Loose} {t s : Str} (d : Nat), Begins v t s → Scan d t (d + v.nesting) d s
  | _, _, _, d, .word (t := t) h => by
    simp only [Loose.nesting]
    exact .scalar (.word h) (by simp only [Loose.type]; split <;> simp) (by simp only [Loose.type]; split <;> simp) .stop
  | _, _, _, d, .number h1 h2 => by
    simp only [Loose.nesting]
    exact .scalar (.number h1 h2) (by simp [Loose.type]) (by simp [Loose.type]) .stop
  | _, _, _, d, .string h => by
    simp only [Loose.nesting]
    exact .scalar (.string h) (by simp [Loose.type]) (by simp [Loose.type]) .stop
  | _, _, _, d, .array (l := l) h => by
    have := Scan.opening (c := c!"[") (.inl (by decide)) (Scan.elements (d + 1) h)
    simp only [Loose.nesting]
    rw [Nat.max_eq_right (by omega)] at this
    simpa [Nat.add_assoc, Nat.add_comm, Nat.add_left_comm] using this
  | _, _, _, d, .object (ms := ms) h => by
    have := Scan.opening (c := c!"{") (.inr (by decide)) (Scan.members (d + 1) h)
    simp only [Loose.nesting]
    rw [Nat.max_eq_right (by omega)] at this
    simpa [Nat.add_assoc, Nat.add_comm, Nat.add_left_comm] using this

theorem Scan.elements : ∀ {l : List Loose} {u s : Str} (d : Nat), BeginsElements l u s → Scan d u (d + elementsNesting l) (d - 1) s
  | _, _, _, d, .nil (s := s) hw => by
    have := (Scan.spaces d hw).trans (.closing (c := c!"]") (.inl (by decide)) (.stop (s := s)))
    simpa [elementsNesting, Nat.max_eq_left (Nat.sub_le d 1)] using this
  | _, _, _, d, .cons (v := v) (l := l) hw hv hl => by
    have := (Scan.spaces d hw).trans ((Scan.value d hv).trans (Scan.elements d hl))
    rw [Nat.max_eq_right (by omega)] at this
    simp only [elementsNesting]
    rw [← Nat.add_max_add_left]
    exact this

theorem Scan.members : ∀ {ms : List (Str × Loose)} {u s : Str} (d : Nat), BeginsMembers ms u s → Scan d u (d + membersNesting ms) (d - 1) s
  | _, _, _, d, .nil (s := s) hw => by
    have := (Scan.spaces d hw).trans (.closing (c := c!"}") (.inr (by decide)) (.stop (s := s)))
    simpa [membersNesting, Nat.max_eq_left (Nat.sub_le d 1)] using this
  | _, _, _, d, .cons (v := v) (ms := ms) hw hk hw' hv hm => by
    have := (Scan.spaces d hw).trans (.scalar (.string hk) (by simp [Loose.type]) (by simp [Loose.type])
      ((Scan.spaces d hw').trans ((Scan.value d hv).trans (Scan.members d hm))))
    rw [Nat.max_eq_right (by omega), Nat.max_eq_right (by omega)] at this
    simp only [membersNesting]
    rw [← Nat.add_max_add_left]
    exact this

end

/-- A program which reads a value nests as many calls as there are brackets around its parts. -/
theorem Prog.callsOn_value {σ : Type} (prog : Prog σ) {r r' : Bool} {w t s' : Str} {v : σ} {x : Loose} (d : Nat) (h : prog.stream r (w ++ t) = .ok v r' s')
    (hw : LooseSpace w) (hx : Begins x t s') : prog.callsOn r (w ++ t) d = d + x.nesting := by
  obtain ⟨d', h1⟩ := prog.scan d h
  have h2 := (Scan.spaces d hw).trans (Scan.value d hx)
  rw [Nat.max_eq_right (by omega)] at h2
  exact (h1.unique h2).1

/-! ## All texts -/

theorem opening_append (s t : Str) : opening (s ++ t) = opening s + opening t := List.countP_append

theorem Op.opening_le {o : Op} {s s' : Str} {a : o.Res} (d : Nat) (h : o.stream s = .ok a s') : o.callsAfter d + opening s' ≤ d + opening s := by
  cases o with
  | skipWhitespace =>
    obtain ⟨w, rfl, hw⟩ := loose_skipWhitespace h
    rw [opening_append]
    simp only [Op.callsAfter]
    omega
  | current =>
    obtain ⟨rfl, _⟩ := loose_current h
    exact Nat.le_refl _
  | consume t =>
    obtain ⟨c, rfl, hc⟩ := loose_consume h
    have hp := punct_char hc
    cases t <;> dsimp only at hp <;> subst hp <;> simp [Op.callsAfter, opening, List.countP_cons] <;> omega
  | readString =>
    obtain ⟨lit, rfl, hl⟩ := exact_readString.mp h
    simp only [Op.callsAfter]
    rw [show c!"\"" :: (lit ++ c!"\"" :: s') = (c!"\"" :: lit ++ [c!"\""]) ++ s' by simp, opening_append]
    omega
  | readNumber =>
    obtain ⟨rfl, _⟩ := exact_readNumber.mp h
    rw [opening_append]
    simp only [Op.callsAfter]
    omega
  | readWord w =>
    obtain ⟨rfl, _⟩ := exact_readWord.mp h
    rw [opening_append]
    simp only [Op.callsAfter]
    omega

theorem Prog.callsOn_le {σ : Type} (prog : Prog σ) (r : Bool) (s : Str) (d : Nat) : prog.callsOn r s d ≤ d + opening s := by
  induction prog generalizing r s d with
  | op o m k ih =>
    unfold Prog.callsOn
    split
    · omega
    · cases h : o.stream s with
      | ok a s1 =>
        have h1 := ih a o.readyAfter s1 (o.callsAfter d)
        have h2 := Op.opening_le d h
        simp only
        omega
      | _ => simp only; omega
  | _ => exact Nat.le_add_right _ _

/-! ## What is counted -/

/-- The program with the largest number of calls as its memory. -/
def Prog.counting {σ : Type} : Nat → Nat → Prog σ → Prog Nat
  | _, m, .done _ => .done m
  | _, m, .fail _ => .fail m
  | _, _, .timeout => .timeout
  | d, m, .op o _ k => .op o m fun a => (k a).counting (o.callsAfter d) (max m (o.callsAfter d))

/-- After the program as many calls are left. -/
def Prog.CallsLeft {σ : Type} (d' : Nat) : Nat → Prog σ → Prop
  | d, .done _ => d = d'
  | d, .op o _ k => ∀ a, (k a).CallsLeft d' (o.callsAfter d)
  | _, _ => True

theorem Prog.counting_run {σ : Type} (prog : Prog σ) (fuel : Nat) (p : Parser) {d m : Nat} (h : d ≤ m) :
    (prog.counting d m).run fuel p = match prog.run fuel p with
      | .ok _ p' => .ok (max m (prog.calls fuel p d)) p'
      | .err _ p' => .err (max m (prog.calls fuel p d)) p'
      | .panic => .panic
      | .timeout => .timeout := by
  induction prog generalizing p d m with
  | done v => simp [Prog.counting, Prog.run, Prog.calls, Nat.max_eq_left h]
  | fail v => simp [Prog.counting, Prog.run, Prog.calls, Nat.max_eq_left h]
  | timeout => rfl
  | op o v k ih =>
    simp only [Prog.counting, Prog.run, Prog.calls]
    cases ho : o.run fuel p with
    | ok a p' =>
      simp only
      rw [ih a p' (Nat.le_max_right _ _)]
      have hge : o.callsAfter d ≤ (k a).calls fuel p' (o.callsAfter d) := by
        cases k a with
        | op o' v' k' => simp only [Prog.calls]; split <;> omega
        | _ => exact Nat.le_refl _
      have e : max (max m (o.callsAfter d)) ((k a).calls fuel p' (o.callsAfter d)) = max m (max d ((k a).calls fuel p' (o.callsAfter d))) := by omega
      rw [e]
    | err p' => simp [Nat.max_eq_left h]
    | _ => rfl

theorem Prog.counting_andThen {σ τ : Type} (p : Prog τ) (f : τ → σ) (k : τ → Prog σ) (q : Nat → Prog Nat) {d d' m : Nat} (h : p.CallsLeft d' d) (hm : d ≤ m)
    (hk : ∀ v m, d' ≤ m → (k v).counting d' m = q m) : (p.andThen f k).counting d m = (p.counting d m).andThen id q := by
  induction p generalizing d m with
  | done v =>
    simp only [Prog.CallsLeft] at h
    subst h
    simp only [Prog.andThen, Prog.counting]
    exact hk v m hm
  | fail v => rfl
  | timeout => rfl
  | op o v k' ih =>
    simp only [Prog.andThen, Prog.counting]
    congr 1
    funext a
    exact ih a (h a) (Nat.le_max_right _ _)

theorem Prog.callsLeft_andThen {σ τ : Type} (p : Prog τ) (f : τ → σ) (k : τ → Prog σ) {d d' d'' : Nat} (h : p.CallsLeft d' d) (hk : ∀ v, (k v).CallsLeft d'' d') :
    (p.andThen f k).CallsLeft d'' d := by
  induction p generalizing d with
  | done v =>
    simp only [Prog.CallsLeft] at h
    subst h
    exact hk v
  | fail v => trivial
  | timeout => trivial
  | op o v k' ih => exact fun a => ih a (h a)

theorem counting_nextType {σ : Type} {v : σ} {k : JType → Prog σ} {q : JType → Prog Nat} {d m : Nat} (hm : d ≤ m) (hk : ∀ next, (k next).counting d m = q next) :
    (nextType v k).counting d m = nextType m q := by
  simp only [nextType, Prog.counting, Op.callsAfter, Nat.max_eq_left hm]
  congr 1
  funext _
  congr 1
  funext c
  split
  · rfl
  · exact hk _

theorem callsLeft_nextType {σ : Type} {v : σ} {k : JType → Prog σ} {d d' : Nat} (hk : ∀ next, (k next).CallsLeft d' d) : (nextType v k).CallsLeft d' d := by
  intro _ c
  simp only [Op.callsAfter]
  split
  · trivial
  · exact hk _

theorem skip_counting (fuel : Nat) :
    (∀ next d m, d ≤ m → (skip fuel next).CallsLeft d d ∧ (skip fuel next).counting d m = skipDeep fuel d m next) ∧
    (∀ d m, d < m → (skipArrayLoop fuel).CallsLeft d (d + 1) ∧ (skipArrayLoop fuel).counting (d + 1) m = skipArrayDeep fuel (d + 1) m) ∧
    (∀ d m, d < m → (skipObjectLoop fuel).CallsLeft d (d + 1) ∧ (skipObjectLoop fuel).counting (d + 1) m = skipObjectDeep fuel (d + 1) m) := by
  induction fuel with
  | zero => exact ⟨fun _ _ _ _ => ⟨by simp [skip, Prog.CallsLeft], by simp [skip, skipDeep, Prog.counting]⟩,
      fun _ _ _ => ⟨by simp [skipArrayLoop, Prog.CallsLeft], by simp [skipArrayLoop, skipArrayDeep, Prog.counting]⟩,
      fun _ _ _ => ⟨by simp [skipObjectLoop, Prog.CallsLeft], by simp [skipObjectLoop, skipObjectDeep, Prog.counting]⟩⟩
  | succ fuel ih =>
    obtain ⟨ih1, ih2, ih3⟩ := ih
    refine ⟨?_, ?_, ?_⟩
    · intro next d m hm
      unfold skip skipDeep
      cases next with
      | objectBegin =>
        refine ⟨fun _ => (ih3 d (d + 1) (by omega)).1, ?_⟩
        simp only [Prog.counting, Op.callsAfter]
        congr 1
        funext _
        exact (ih3 d (max m (d + 1)) (by omega)).2
      | arrayBegin =>
        refine ⟨fun _ => (ih2 d (d + 1) (by omega)).1, ?_⟩
        simp only [Prog.counting, Op.callsAfter]
        congr 1
        funext _
        exact (ih2 d (max m (d + 1)) (by omega)).2
      | boolean =>
        refine ⟨fun c => ?_, ?_⟩
        · simp only [Op.callsAfter]
          split <;> exact fun _ => rfl
        · simp only [readBoolean, Prog.counting, Op.callsAfter, Nat.max_eq_left hm]
          congr 1
          funext c
          split <;> simp [Prog.counting, Op.callsAfter, Nat.max_eq_left hm]
      | string => exact ⟨fun _ => rfl, by simp [Prog.counting, Op.callsAfter, Nat.max_eq_left hm]⟩
      | number => exact ⟨fun _ => rfl, by simp [Prog.counting, Op.callsAfter, Nat.max_eq_left hm]⟩
      | null => exact ⟨fun _ => rfl, by simp [readNull, Prog.counting, Op.callsAfter, Nat.max_eq_left hm]⟩
      | _ => exact ⟨trivial, rfl⟩
    · intro d m hm
      unfold skipArrayLoop skipArrayDeep
      refine ⟨callsLeft_nextType fun next => ?_, counting_nextType (by omega) fun next => ?_⟩
      · split
        · exact fun _ => rfl
        · exact Prog.callsLeft_andThen _ _ _ (ih1 next (d + 1) (d + 1) (Nat.le_refl _)).1 fun _ => (ih2 d (d + 1) (by omega)).1
      · split
        · simp only [Prog.counting, Op.callsAfter]
          rw [Nat.max_eq_left (by omega)]
        · rw [Prog.counting_andThen _ _ _ (fun m => skipArrayDeep fuel (d + 1) m) (ih1 next (d + 1) m (by omega)).1 (by omega) fun _ m hm => (ih2 d m (by omega)).2,
            (ih1 next (d + 1) m (by omega)).2]
    · intro d m hm
      unfold skipObjectLoop skipObjectDeep
      refine ⟨callsLeft_nextType fun next => ?_, counting_nextType (by omega) fun next => ?_⟩
      · split
        · exact fun _ => rfl
        · exact fun _ => Prog.callsLeft_andThen _ _ _ (callsLeft_nextType fun next => (ih1 next (d + 1) (d + 1) (Nat.le_refl _)).1) fun _ => (ih3 d (d + 1) (by omega)).1
      · split
        · simp only [Prog.counting, Op.callsAfter]
          rw [Nat.max_eq_left (by omega)]
        · simp only [Prog.counting, Op.callsAfter, Nat.max_eq_left (show d + 1 ≤ m by omega)]
          congr 1
          funext _
          rw [Prog.counting_andThen _ _ _ (fun m => skipObjectDeep fuel (d + 1) m) (callsLeft_nextType fun next => (ih1 next (d + 1) m (by omega)).1) (by omega)
            fun _ m hm => (ih3 d m (by omega)).2, counting_nextType (by omega) fun next => (ih1 next (d + 1) m (by omega)).2]

end Verif
