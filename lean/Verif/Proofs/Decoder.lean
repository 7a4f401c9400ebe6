import Verif.Proofs.Safe

/-!
# The decoders never panic and never loop
-/

namespace Verif

/-! ## Looking before reading -/

section
variable {σ : Type}

theorem Prog.safe_done {r : Bool} {m : σ} : (Prog.done m).Safe r := trivial

theorem nextType_safe {m : σ} {k : JType → Prog σ} (h : ∀ t, (k t).Safe true) (r : Bool) : (nextType m k).Safe r := by
  refine ⟨by simp [Op.needsByte], fun _ => ⟨fun _ => rfl, fun c => ?_⟩⟩
  by_cases hc : symbolTable c = .error
  · simp only [if_pos hc]; trivial
  · simp only [if_neg hc]; exact h _

theorem consume_safe (t : Punct) {m : σ} {k : Prog σ} (h : k.Safe false) (r : Bool) : (consume t m k).Safe r :=
  ⟨by simp [Op.needsByte], fun _ => ⟨fun _ => rfl, fun _ => h⟩⟩

theorem readString_safe {m : σ} {k : Str → Prog σ} (h : ∀ t, (k t).Safe false) (r : Bool) : (readString m k).Safe r :=
  ⟨by simp [Op.needsByte], fun _ => ⟨fun _ => rfl, h⟩⟩

theorem readNumber_safe {m : σ} {k : Str → Prog σ} (h : ∀ t, (k t).Safe false) (r : Bool) : (readNumber m k).Safe r :=
  ⟨by simp [Op.needsByte], fun _ => ⟨fun _ => rfl, h⟩⟩

theorem readBoolean_safe {m : σ} {k : Str → Prog σ} (h : ∀ t, (k t).Safe false) : (readBoolean m k).Safe true := by
  refine ⟨fun _ => rfl, fun c => ?_⟩
  simp only
  split
  · exact ⟨fun _ => rfl, h⟩
  · exact ⟨fun _ => rfl, h⟩

theorem readLiteral_safe {m : σ} {k : Str → Prog σ} (h : ∀ t, (k t).Safe false) (r : Bool) : (readLiteral m k).Safe r := by
  refine nextType_safe (fun t => ?_) r
  split
  · exact ⟨fun _ => rfl, h⟩
  · exact ⟨fun _ => rfl, h⟩
  · exact readBoolean_safe h
  · exact ⟨fun _ => rfl, h⟩
  · trivial

end

theorem skip_safe (fuel : Nat) :
    (∀ t, (skip fuel t).Safe true) ∧ (∀ r, (skipArrayLoop fuel).Safe r) ∧ (∀ r, (skipObjectLoop fuel).Safe r) := by
  induction fuel with
  | zero =>
    refine ⟨fun t => ?_, fun r => ?_, fun r => ?_⟩
    · unfold skip; trivial
    · unfold skipArrayLoop; trivial
    · unfold skipObjectLoop; trivial
  | succ fuel ih =>
    obtain ⟨ih1, ih2, ih3⟩ := ih
    refine ⟨fun t => ?_, fun r => ?_, fun r => ?_⟩
    · unfold skip
      split
      · exact ⟨fun _ => rfl, fun _ => trivial⟩
      · exact ⟨fun _ => rfl, fun _ => trivial⟩
      · exact readBoolean_safe fun _ => trivial
      · exact ⟨fun _ => rfl, fun _ => trivial⟩
      · exact ⟨fun _ => rfl, fun _ => ih3 _⟩
      · exact ⟨fun _ => rfl, fun _ => ih2 _⟩
      · trivial
    · unfold skipArrayLoop
      refine nextType_safe (fun t => ?_) r
      split
      · exact ⟨fun _ => rfl, fun _ => trivial⟩
      · exact (ih1 t).andThen _ fun _ => ih2 _
    · unfold skipObjectLoop
      refine nextType_safe (fun t => ?_) r
      split
      · exact ⟨fun _ => rfl, fun _ => trivial⟩
      · exact ⟨fun _ => rfl, fun _ => (nextType_safe (fun t => ih1 t) _).andThen _ fun _ => ih3 _⟩

theorem skipValue_safe (fuel : Nat) (r : Bool) : (skipValue fuel).Safe r := nextType_safe (fun t => (skip_safe fuel).1 t) r

/-- The decoder never looks at a byte where there is none. -/
def ValueDecoder.Safe {σ : Type} (d : ValueDecoder σ) : Prop := ∀ m r, (d m).Safe r

theorem ValueDecoder.Safe.field {τ σ : Type} {get : σ → τ} {set : τ → σ → σ} {d : ValueDecoder τ} (h : d.Safe) : (d.field get set).Safe :=
  fun m r => (h (get m) r).andThen _ fun _ => trivial

theorem uint64ValueDecoder_safe : uint64ValueDecoder.Safe := by
  intro m r
  refine readNumber_safe (fun t => ?_) r
  split <;> trivial

theorem stringValueDecoder_safe : stringValueDecoder.Safe := fun _ r => readString_safe (fun _ => Prog.safe_done) r

theorem anyValueDecoder_safe : anyValueDecoder.Safe := fun _ r => readLiteral_safe (fun _ => Prog.safe_done) r

theorem idValueDecoder_safe (fuel : Nat) : (idValueDecoder fuel).Safe := by
  intro m r
  refine nextType_safe (fun t => ?_) r
  split
  · exact (skipValue_safe fuel _).andThen _ fun _ => trivial
  · refine readString_safe (fun t => ?_) _
    split <;> trivial

theorem mapLoop_safe {kd vd : ValueDecoder Str} (hk : kd.Safe) (hv : vd.Safe) (m : Option TagMap) (fuel : Nat) (result : Option TagMap)
    (r : Bool) : (mapLoop kd vd m fuel result).Safe r := by
  induction fuel generalizing result r with
  | zero => trivial
  | succ fuel ih =>
    refine nextType_safe (fun t => ?_) r
    split
    · exact consume_safe _ Prog.safe_done _
    · exact (hk _ _).andThen _ fun _ => (hv _ _).andThen _ fun _ => ih _ _

theorem makeMapDecoder_safe {kd vd : ValueDecoder Str} (hk : kd.Safe) (hv : vd.Safe) (fuel : Nat) : (makeMapDecoder fuel kd vd).Safe :=
  fun _ r => consume_safe _ (mapLoop_safe hk hv _ _ _ _) r

theorem sliceLoop_safe {α : Type} {newCap : Nat → Nat → Nat} {zero : α} {d : ValueDecoder α} (h : d.Safe) (fuel idx : Nat) (s : GoSlice α)
    (r : Bool) : (sliceLoop newCap zero d fuel idx s).Safe r := by
  induction fuel generalizing idx s r with
  | zero => trivial
  | succ fuel ih =>
    refine nextType_safe (fun t => ?_) r
    split
    · exact consume_safe _ Prog.safe_done _
    · exact (h _ _).andThen _ fun _ => ih _ _ _

theorem makeSliceDecoder_safe {α : Type} {newCap : Nat → Nat → Nat} {zero : α} {d : ValueDecoder α} (h : d.Safe) (fuel : Nat) :
    (makeSliceDecoder newCap fuel zero d).Safe :=
  fun _ r => consume_safe _ (sliceLoop_safe h _ _ _ _) r

theorem arrayLoop_safe {α : Type} {skipFuel : Nat} {zero : α} {d : ValueDecoder α} (h : d.Safe) (fuel idx : Nat) (a : List α)
    (r : Bool) : (arrayLoop skipFuel zero d fuel idx a).Safe r := by
  induction fuel generalizing idx a r with
  | zero => trivial
  | succ fuel ih =>
    refine nextType_safe (fun t => ?_) r
    split
    · exact consume_safe _ Prog.safe_done _
    · split
      · exact (h _ _).andThen _ fun _ => ih _ _ _
      · exact (skipValue_safe _ _).andThen _ fun _ => ih _ _ _

theorem makeArrayDecoder_safe {α : Type} {zero : α} {d : ValueDecoder α} (h : d.Safe) (fuel : Nat) : (makeArrayDecoder fuel zero d).Safe :=
  fun _ r => consume_safe _ (arrayLoop_safe h _ _ _ _) r

theorem lookup_mem {α : Type} {l : List (Str × α)} {k : Str} {a : α} (h : l.lookup k = some a) : (k, a) ∈ l := by
  induction l with
  | nil => simp at h
  | cons x l ih =>
    obtain ⟨k', a'⟩ := x
    rw [List.lookup_cons] at h
    split at h
    · rename_i hk
      have hk : k = k' := by simpa using hk
      injection h with h
      rw [hk, h]
      exact List.mem_cons_self
    · exact List.mem_cons_of_mem _ (ih h)

theorem structLoop_safe {σ : Type} {skipFuel : Nat} {fields : List (Str × ValueDecoder σ)} (h : ∀ f ∈ fields, f.2.Safe) (fuel : Nat) (m : σ)
    (r : Bool) : (structLoop skipFuel fields fuel m).Safe r := by
  induction fuel generalizing m r with
  | zero => trivial
  | succ fuel ih =>
    refine nextType_safe (fun t => ?_) r
    split
    · exact consume_safe _ Prog.safe_done _
    · refine readString_safe (fun key => ?_) _
      split
      · rename_i d hd
        exact (h _ (lookup_mem hd) _ _).andThen _ fun _ => ih _ _
      · exact (skipValue_safe _ _).andThen _ fun _ => ih _ _

theorem makeStructDecoder_safe {σ : Type} {fields : List (Str × ValueDecoder σ)} (h : ∀ f ∈ fields, f.2.Safe) (fuel : Nat) :
    (makeStructDecoder fuel fields).Safe :=
  fun _ r => consume_safe _ (structLoop_safe h _ _ _) r

/-! ## Every iteration consumes a byte -/

/-- On streams with at most `n` bytes the program does not run out of fuel, and consumes at least `b` bytes if it succeeds. -/
def Prog.Ends {σ : Type} (n b : Nat) (p : Prog σ) : Prop :=
  ∀ r (s : List UInt8), s.length ≤ n → p.stream r s ≠ .timeout ∧ ∀ m r' s', p.stream r s = .ok m r' s' → s'.length + b ≤ s.length

/-- The bytes that the operation consumes at least. -/
def Op.eats : Op → Nat
  | .skipWhitespace => 0
  | .current => 0
  | _ => 1

theorem scanString_length {esc : Bool} {s body s' : List UInt8} (h : scanString esc s = some (body, s')) : s'.length + 1 ≤ s.length := by
  induction s generalizing esc body with
  | nil => simp [scanString] at h
  | cons c s ih =>
    cases esc with
    | true =>
      simp only [scanString, Option.map_eq_some_iff] at h
      obtain ⟨⟨b, r⟩, h1, h2⟩ := h
      injection h2 with _ h2
      have := ih (by rw [h1, ← h2])
      simp only [List.length_cons]
      omega
    | false =>
      simp only [scanString] at h
      split at h
      · rw [Option.map_eq_some_iff] at h
        obtain ⟨⟨b, r⟩, h1, h2⟩ := h
        injection h2 with _ h2
        have := ih (by rw [h1, ← h2])
        simp only [List.length_cons]
        omega
      · split at h
        · injection h with h
          injection h with _ h
          rw [← h]
          simp
        · rw [Option.map_eq_some_iff] at h
          obtain ⟨⟨b, r⟩, h1, h2⟩ := h
          injection h2 with _ h2
          have := ih (by rw [h1, ← h2])
          simp only [List.length_cons]
          omega

theorem length_dropWhile_le {α : Type} (f : α → Bool) (l : List α) : (l.dropWhile f).length ≤ l.length := by
  have := congrArg List.length (List.takeWhile_append_dropWhile (p := f) (l := l))
  rw [List.length_append] at this
  omega

theorem Op.stream_eats (o : Op) {s s' : List UInt8} {a : o.Res} (h : o.stream s = .ok a s') : s'.length + o.eats ≤ s.length := by
  cases o with
  | skipWhitespace =>
    simp only [Op.stream] at h
    split at h
    · simp at h
    · injection h with _ h
      rw [← h]
      exact length_dropWhile_le _ _
  | current =>
    simp only [Op.stream] at h
    split at h
    · simp at h
    · injection h with _ h
      rw [← h]
      exact Nat.le_refl _
  | consume t =>
    simp only [Op.stream] at h
    split at h
    · simp at h
    · split at h
      · injection h with _ h
        rw [← h]
        simp [Op.eats]
      · simp at h
  | readString =>
    simp only [Op.stream] at h
    split at h
    · simp at h
    · split at h
      · simp at h
      · split at h
        · simp at h
        · rename_i hsc
          split at h
          · simp at h
          · injection h with _ h
            rw [← h]
            have := scanString_length hsc
            simp only [List.length_cons, Op.eats]
            omega
  | readNumber =>
    simp only [Op.stream] at h
    split at h
    · simp at h
    · split at h
      · simp at h
      · rename_i c s _
        split at h
        · simp at h
        · injection h with _ h
          rw [← h]
          have := length_dropWhile_le numberChar s
          simp only [List.length_cons, Op.eats]
          omega
  | readWord w =>
    simp only [Op.stream] at h
    split at h
    · simp at h
    · split at h
      · simp at h
      · split at h
        · simp at h
        · injection h with _ h
          rw [← h]
          have hw : 0 < w.length := by cases w <;> decide
          simp only [List.length_drop, Op.eats]
          omega

section
variable {σ τ : Type}

theorem Prog.ends_done {n : Nat} {m : σ} : (Prog.done m).Ends n 0 := by
  intro r s _
  refine ⟨by simp [Prog.stream], ?_⟩
  intro m r' s' h
  injection h with _ _ h
  rw [← h]
  exact Nat.le_refl _

theorem Prog.ends_fail {n b : Nat} {m : σ} : (Prog.fail m).Ends n b := by
  intro r s _
  exact ⟨by simp [Prog.stream], by simp [Prog.stream]⟩

theorem Prog.Ends.mono {n n' b b' : Nat} {p : Prog σ} (h : p.Ends n b) (hn : n' ≤ n) (hb : b' ≤ b) : p.Ends n' b' := by
  intro r s hs
  obtain ⟨h1, h2⟩ := h r s (by omega)
  exact ⟨h1, fun m r' s' hh => by have := h2 m r' s' hh; omega⟩

theorem Prog.ends_op {n b : Nat} {o : Op} {m : σ} {k : o.Res → Prog σ} (h : o.eats ≤ n → ∀ a, (k a).Ends (n - o.eats) b) :
    (Prog.op o m k).Ends n (o.eats + b) := by
  intro r s hs
  unfold Prog.stream
  split
  · exact ⟨by simp, by simp⟩
  · rcases ho : o.stream s with ⟨a, s1⟩ | _ | _
    · have he := o.stream_eats ho
      obtain ⟨h1, h2⟩ := h (by omega) a o.readyAfter s1 (by omega)
      exact ⟨h1, fun m r' s' hh => by have := h2 m r' s' hh; omega⟩
    · exact ⟨by simp, by simp⟩
    · exact ⟨by simp, by simp⟩

theorem Prog.Ends.andThen {n b b' : Nat} {p : Prog τ} (h : p.Ends n b) (f : τ → σ) {k : τ → Prog σ}
    (hk : b ≤ n → ∀ m, (k m).Ends (n - b) b') : (p.andThen f k).Ends n (b + b') := by
  intro r s hs
  rw [Prog.stream_andThen]
  obtain ⟨h1, h2⟩ := h r s hs
  rcases hp : p.stream r s with ⟨m, r1, s1⟩ | m | _ | _
  · have he := h2 m r1 s1 hp
    obtain ⟨g1, g2⟩ := hk (by omega) m r1 s1 (by omega)
    exact ⟨g1, fun m r' s' hh => by have := g2 m r' s' hh; omega⟩
  · exact ⟨by simp, by simp⟩
  · exact ⟨by simp, by simp⟩
  · exact absurd hp h1

theorem nextType_ends {n b : Nat} {m : σ} {k : JType → Prog σ} (h : ∀ t, (k t).Ends n b) : (nextType m k).Ends n b := by
  have := Prog.ends_op (o := .skipWhitespace) (m := m) (n := n) (b := b)
    (k := fun _ => .op .current m fun (c : UInt8) => if symbolTable c = .error then .fail m else k (symbolTable c))
    (fun _ _ => by
      have := Prog.ends_op (o := .current) (m := m) (n := n) (b := b)
        (k := fun (c : UInt8) => if symbolTable c = .error then .fail m else k (symbolTable c)) (fun _ c => by
          split
          · exact Prog.ends_fail
          · exact h _)
      simpa [Op.eats] using this)
  simpa [Op.eats, nextType] using this

theorem ends_skipWhitespace {n b : Nat} {m : σ} {k : Prog σ} (h : k.Ends n b) : (Prog.op .skipWhitespace m fun _ => k).Ends n b := by
  have := Prog.ends_op (o := .skipWhitespace) (m := m) (n := n) (b := b) (k := fun _ => k) (fun _ _ => h)
  simpa [Op.eats] using this

theorem consume_ends {n b : Nat} (t : Punct) {m : σ} {k : Prog σ} (h : 1 ≤ n → k.Ends (n - 1) b) : (consume t m k).Ends n (1 + b) :=
  ends_skipWhitespace (Prog.ends_op (o := .consume t) fun hn _ => h hn)

theorem readString_ends {n b : Nat} {m : σ} {k : Str → Prog σ} (h : 1 ≤ n → ∀ a, (k a).Ends (n - 1) b) : (readString m k).Ends n (1 + b) :=
  ends_skipWhitespace (Prog.ends_op (o := .readString) h)

theorem readNumber_ends {n b : Nat} {m : σ} {k : Str → Prog σ} (h : 1 ≤ n → ∀ a, (k a).Ends (n - 1) b) : (readNumber m k).Ends n (1 + b) :=
  ends_skipWhitespace (Prog.ends_op (o := .readNumber) h)

theorem readBoolean_ends {n b : Nat} {m : σ} {k : Str → Prog σ} (h : 1 ≤ n → ∀ a, (k a).Ends (n - 1) b) : (readBoolean m k).Ends n (1 + b) := by
  have := Prog.ends_op (o := .current) (m := m) (n := n) (b := 1 + b)
    (k := fun (c : UInt8) => if c = c!"t" then .op (.readWord .true) m k else .op (.readWord .false) m k) (fun _ (c : UInt8) => by
      by_cases hc : c = c!"t"
      · rw [if_pos hc]; exact Prog.ends_op (o := .readWord .true) h
      · rw [if_neg hc]; exact Prog.ends_op (o := .readWord .false) h)
  simpa [Op.eats, readBoolean] using this

theorem readLiteral_ends {n b : Nat} {m : σ} {k : Str → Prog σ} (h : 1 ≤ n → ∀ a, (k a).Ends (n - 1) b) : (readLiteral m k).Ends n (1 + b) := by
  refine nextType_ends fun t => ?_
  split
  · exact Prog.ends_op (o := .readString) h
  · exact Prog.ends_op (o := .readNumber) h
  · exact readBoolean_ends h
  · exact Prog.ends_op (o := .readWord .null) h
  · exact Prog.ends_fail

end

theorem skip_ends (fuel : Nat) :
    (∀ n t, 2 * n < fuel → (skip fuel t).Ends n 1) ∧ (∀ n, 2 * n + 1 < fuel → (skipArrayLoop fuel).Ends n 1) ∧
    (∀ n, 2 * n + 1 < fuel → (skipObjectLoop fuel).Ends n 1) := by
  induction fuel with
  | zero => exact ⟨fun _ _ h => by omega, fun _ h => by omega, fun _ h => by omega⟩
  | succ fuel ih =>
    obtain ⟨ih1, ih2, ih3⟩ := ih
    refine ⟨fun n t hn => ?_, fun n hn => ?_, fun n hn => ?_⟩
    · unfold skip
      split
      · exact Prog.ends_op (o := .readString) fun _ _ => Prog.ends_done
      · exact Prog.ends_op (o := .readNumber) fun _ _ => Prog.ends_done
      · exact readBoolean_ends fun _ _ => Prog.ends_done
      · exact Prog.ends_op (o := .readWord .null) fun _ _ => Prog.ends_done
      · have := Prog.ends_op (o := .consume .objectBegin) (m := ()) (n := n) (b := 1) (k := fun _ => skipObjectLoop fuel)
          (fun hh _ => ih3 _ (by simp only [Op.eats] at hh ⊢; omega))
        exact this.mono (Nat.le_refl _) (by simp [Op.eats])
      · have := Prog.ends_op (o := .consume .arrayBegin) (m := ()) (n := n) (b := 1) (k := fun _ => skipArrayLoop fuel)
          (fun hh _ => ih2 _ (by simp only [Op.eats] at hh ⊢; omega))
        exact this.mono (Nat.le_refl _) (by simp [Op.eats])
      · exact Prog.ends_fail
    · unfold skipArrayLoop
      refine nextType_ends fun t => ?_
      split
      · exact Prog.ends_op (o := .consume .arrayEnd) fun _ _ => Prog.ends_done
      · exact ((ih1 n t (by omega)).andThen id fun _ _ => ih2 (n - 1) (by omega)).mono (Nat.le_refl _) (by omega)
    · unfold skipObjectLoop
      refine nextType_ends fun t => ?_
      split
      · exact Prog.ends_op (o := .consume .objectEnd) fun _ _ => Prog.ends_done
      · have := Prog.ends_op (o := .readString) (m := ()) (n := n) (b := 1)
          (k := fun _ => (nextType () fun next => skip fuel next).andThen id fun _ => skipObjectLoop fuel) (fun hh _ => by
            simp only [Op.eats] at hh ⊢
            exact ((nextType_ends fun t => ih1 (n - 1) t (by omega)).andThen id
              fun _ _ => ih3 (n - 1 - 1) (by omega)).mono (Nat.le_refl _) (by omega))
        exact this.mono (Nat.le_refl _) (by simp [Op.eats])

theorem skipValue_ends {fuel n : Nat} (h : 2 * n < fuel) : (skipValue fuel).Ends n 1 :=
  nextType_ends fun t => (skip_ends fuel).1 n t h

/-- On streams with at most `n` bytes the decoder does not run out of fuel, and consumes at least one byte if it succeeds. -/
def ValueDecoder.Ends {σ : Type} (n : Nat) (d : ValueDecoder σ) : Prop := ∀ m n', n' ≤ n → (d m).Ends n' 1

theorem ValueDecoder.Ends.field {τ σ : Type} {n : Nat} {get : σ → τ} {set : τ → σ → σ} {d : ValueDecoder τ} (h : d.Ends n) :
    (d.field get set).Ends n :=
  fun m n' hn => (h (get m) n' hn).andThen _ fun _ _ => Prog.ends_done

theorem uint64ValueDecoder_ends {n : Nat} : uint64ValueDecoder.Ends n := by
  intro m n' _
  refine readNumber_ends (b := 0) fun _ t => ?_
  split
  · exact Prog.ends_fail
  · exact Prog.ends_done

theorem stringValueDecoder_ends {n : Nat} : stringValueDecoder.Ends n := fun _ _ _ => readString_ends fun _ _ => Prog.ends_done

theorem anyValueDecoder_ends {n : Nat} : anyValueDecoder.Ends n := fun _ _ _ => readLiteral_ends fun _ _ => Prog.ends_done

theorem idValueDecoder_ends {fuel n : Nat} (h : 2 * n < fuel) : (idValueDecoder fuel).Ends n := by
  intro m n' hn
  refine nextType_ends fun t => ?_
  split
  · exact (skipValue_ends (show 2 * n' < fuel by omega)).andThen _ fun _ _ => Prog.ends_done
  · refine readString_ends (b := 0) fun _ t => ?_
    split
    · exact Prog.ends_fail
    · exact Prog.ends_done

theorem mapLoop_ends {kd vd : ValueDecoder Str} {N : Nat} (hk : kd.Ends N) (hv : vd.Ends N) (m : Option TagMap) (fuel : Nat)
    (result : Option TagMap) {n : Nat} (hn : n ≤ N) (hf : n < fuel) : (mapLoop kd vd m fuel result).Ends n 1 := by
  induction fuel generalizing result n with
  | zero => omega
  | succ fuel ih =>
    refine nextType_ends fun t => ?_
    split
    · exact consume_ends _ fun _ => Prog.ends_done
    · exact ((hk _ n hn).andThen _ fun _ _ => (hv _ (n - 1) (by omega)).andThen _ fun _ _ =>
        ih _ (n := n - 1 - 1) (by omega) (by omega)).mono (Nat.le_refl _) (by omega)

theorem makeMapDecoder_ends {kd vd : ValueDecoder Str} {N : Nat} (hk : kd.Ends N) (hv : vd.Ends N) {fuel : Nat} (hf : N < fuel) :
    (makeMapDecoder fuel kd vd).Ends N :=
  fun m n hn => (consume_ends _ fun _ => mapLoop_ends hk hv m fuel none (n := n - 1) (by omega) (by omega)).mono (Nat.le_refl _) (by omega)

theorem sliceLoop_ends {α : Type} {newCap : Nat → Nat → Nat} {zero : α} {d : ValueDecoder α} {N : Nat} (h : d.Ends N) (fuel idx : Nat)
    (s : GoSlice α) {n : Nat} (hn : n ≤ N) (hf : n < fuel) : (sliceLoop newCap zero d fuel idx s).Ends n 1 := by
  induction fuel generalizing idx s n with
  | zero => omega
  | succ fuel ih =>
    refine nextType_ends fun t => ?_
    split
    · exact consume_ends _ fun _ => Prog.ends_done
    · exact ((h _ n hn).andThen _ fun _ _ => ih _ _ (n := n - 1) (by omega) (by omega)).mono (Nat.le_refl _) (by omega)

theorem makeSliceDecoder_ends {α : Type} {newCap : Nat → Nat → Nat} {zero : α} {d : ValueDecoder α} {N : Nat} (h : d.Ends N) {fuel : Nat}
    (hf : N < fuel) : (makeSliceDecoder newCap fuel zero d).Ends N :=
  fun s n hn => (consume_ends _ fun _ => sliceLoop_ends h fuel 0 s (n := n - 1) (by omega) (by omega)).mono (Nat.le_refl _) (by omega)

theorem arrayLoop_ends {α : Type} {skipFuel : Nat} {zero : α} {d : ValueDecoder α} {N : Nat} (h : d.Ends N) (hs : 2 * N < skipFuel)
    (fuel idx : Nat) (a : List α) {n : Nat} (hn : n ≤ N) (hf : n < fuel) : (arrayLoop skipFuel zero d fuel idx a).Ends n 1 := by
  induction fuel generalizing idx a n with
  | zero => omega
  | succ fuel ih =>
    refine nextType_ends fun t => ?_
    split
    · exact consume_ends _ fun _ => Prog.ends_done
    · split
      · exact ((h _ n hn).andThen _ fun _ _ => ih _ _ (n := n - 1) (by omega) (by omega)).mono (Nat.le_refl _) (by omega)
      · exact ((skipValue_ends (n := n) (by omega)).andThen _ fun _ _ => ih _ _ (n := n - 1) (by omega) (by omega)).mono (Nat.le_refl _)
          (by omega)

theorem makeArrayDecoder_ends {α : Type} {zero : α} {d : ValueDecoder α} {N : Nat} (h : d.Ends N) {fuel : Nat} (hf : 2 * N < fuel) :
    (makeArrayDecoder fuel zero d).Ends N :=
  fun s n hn => (consume_ends _ fun _ => arrayLoop_ends h hf fuel 0 s (n := n - 1) (by omega) (by omega)).mono (Nat.le_refl _) (by omega)

theorem structLoop_ends {σ : Type} {skipFuel : Nat} {fields : List (Str × ValueDecoder σ)} {N : Nat} (h : ∀ f ∈ fields, f.2.Ends N)
    (hs : 2 * N < skipFuel) (fuel : Nat) (m : σ) {n : Nat} (hn : n ≤ N) (hf : n < fuel) : (structLoop skipFuel fields fuel m).Ends n 1 := by
  induction fuel generalizing m n with
  | zero => omega
  | succ fuel ih =>
    refine nextType_ends fun t => ?_
    split
    · exact consume_ends _ fun _ => Prog.ends_done
    · refine (readString_ends (b := 1) fun _ key => ?_).mono (Nat.le_refl _) (by omega)
      split
      · rename_i d hd
        exact ((h _ (lookup_mem hd) m (n - 1) (by omega)).andThen _ fun _ _ => ih _ (n := n - 1 - 1) (by omega) (by omega)).mono
          (Nat.le_refl _) (by omega)
      · exact ((skipValue_ends (n := n - 1) (by omega)).andThen _ fun _ _ => ih _ (n := n - 1 - 1) (by omega) (by omega)).mono
          (Nat.le_refl _) (by omega)

theorem makeStructDecoder_ends {σ : Type} {fields : List (Str × ValueDecoder σ)} {N : Nat} (h : ∀ f ∈ fields, f.2.Ends N) {fuel : Nat}
    (hf : 2 * N < fuel) : (makeStructDecoder fuel fields).Ends N :=
  fun m n hn => (consume_ends _ fun _ => structLoop_ends h hf fuel m (n := n - 1) (by omega) (by omega)).mono (Nat.le_refl _) (by omega)

end Verif
