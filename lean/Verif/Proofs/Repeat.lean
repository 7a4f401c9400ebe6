import Verif.Spec.Repeat
import Verif.Props.Accept
import Verif.Proofs.Bounded

/-!
# What a request leaves in pooled memory, also if it fails
-/

namespace Verif

open Spec

theorem membersBefore_snoc {ms : List (Str × Loose)} {u s w lit name w' t s' : Str} {v : Loose} (h : MembersBefore ms u s)
    (e : s = w ++ c!"\"" :: (lit ++ c!"\"" :: (w' ++ t))) (hw : LooseSpace w) (hl : Unquotes lit name) (hw' : LooseSpace w') (hv : Begins v t s') :
    MembersBefore (ms ++ [(name, v)]) u s' := by
  induction h with
  | nil => subst e; exact .cons hw hl hw' hv .nil
  | cons h1 h2 h3 h4 _ ih => exact .cons h1 h2 h3 h4 (ih e)

section
variable {σ τ : Type}

/-- Where the program succeeds, memory and rest are like this, and where it fails the memory is like that — even if it fails at an operation that could have succeeded. -/
def Prog.Leaves (ok : σ → Str → Prop) (err : σ → Prop) : Prog σ → Str → Prop
  | .done m, s => ok m s
  | .fail m, _ => err m
  | .timeout, _ => True
  | .op o m k, s => err m ∧ ∀ a s', o.stream s = .ok a s' → (k a).Leaves ok err s'

variable {ok : σ → Str → Prop} {err : σ → Prop}

theorem Prog.Leaves.mono {prog : Prog σ} {s : Str} (h : prog.Leaves ok err s) {ok' : σ → Str → Prop} {err' : σ → Prop} (h1 : ∀ m s', ok m s' → ok' m s')
    (h2 : ∀ m, err m → err' m) : prog.Leaves ok' err' s := by
  induction prog generalizing s with
  | done m => exact h1 _ _ h
  | fail m => exact h2 _ h
  | timeout => trivial
  | op o m k ih => exact ⟨h2 _ h.1, fun a s' e => ih a (h.2 a s' e)⟩

theorem leaves_true (prog : Prog σ) (s : Str) : prog.Leaves (fun _ _ => True) (fun _ => True) s := by
  induction prog generalizing s with
  | done m => trivial
  | fail m => trivial
  | timeout => trivial
  | op o m k ih => exact ⟨trivial, fun a s' _ => ih a s'⟩

/-- Success is that on the stream. -/
theorem Prog.Leaves.stream {prog : Prog σ} {r : Bool} {s : Str} (h : prog.Leaves ok err s) (hs : prog.Safe r) :
    prog.Leaves (fun m s' => ok m s' ∧ ∃ r', prog.stream r s = .ok m r' s') err s := by
  induction prog generalizing r s with
  | done m => exact ⟨h, r, rfl⟩
  | fail m => exact h
  | timeout => trivial
  | op o m k ih =>
    refine ⟨h.1, fun a s' e => ?_⟩
    have hk := ih a (h.2 a s' e) (hs.2 a)
    have hb : ¬ ((o.needsByte && !r) = true) := by
      intro hb
      simp only [Bool.and_eq_true, Bool.not_eq_true'] at hb
      have := hs.1 hb.1
      rw [this] at hb
      cases hb.2
    refine hk.mono (fun m' s'' h' => ⟨h'.1, ?_⟩) fun _ h => h
    obtain ⟨r', h2⟩ := h'.2
    refine ⟨r', ?_⟩
    simp only [Prog.stream]
    rw [if_neg hb, e]
    exact h2

/-- What a run leaves, whatever the reader does. -/
theorem Prog.Leaves.run {prog : Prog σ} {r : Bool} {p : Parser} (h : prog.Leaves ok err p.rest) (hs : prog.Safe r) (hp : p.Ok) (h5 : 5 ≤ p.buffer.length) {fuel : Nat}
    (hf : p.work < fuel) (hr : r = true → p.tail < p.head) :
    (∀ m p', prog.run fuel p = .ok m p' → ok m p'.rest) ∧ ∀ m p', prog.run fuel p = .err m p' → err m := by
  induction prog generalizing p r with
  | done m =>
    refine ⟨fun m' p' e => ?_, fun m' p' e => by simp [Prog.run] at e⟩
    simp only [Prog.run, Decoded.ok.injEq] at e
    rw [← e.1, ← e.2]
    exact h
  | fail m =>
    refine ⟨fun m' p' e => by simp [Prog.run] at e, fun m' p' e => ?_⟩
    simp only [Prog.run, Decoded.err.injEq] at e
    rw [← e.1]
    exact h
  | timeout => exact ⟨fun m' p' e => by simp [Prog.run] at e, fun m' p' e => by simp [Prog.run] at e⟩
  | op o m k ih =>
    have hne : o.needsByte = true → p.tail < p.head := fun hn => hr (hs.1 hn)
    simp only [Prog.run]
    by_cases hfit : o.Fits p.buffer.length p.rest
    · have ha := o.run_agrees (by omega) fuel p hp (Nat.le_refl _) hf hfit hne
      cases hst : o.stream p.rest with
      | ok a s' =>
        rw [hst] at ha
        obtain ⟨p', e1, e2, e3, _, e5⟩ := ha
        have hlen := Op.run_length hp h5 hne e1
        rw [e1]
        exact ih a (by rw [e3]; exact h.2 a s' hst) (hs.2 a) e2 (by omega) (by omega) (fun hh => Op.run_ready e1 hh hne)
      | err =>
        rw [hst] at ha
        obtain ⟨p', e1, _⟩ := ha
        rw [e1]
        refine ⟨fun _ _ e => by simp at e, fun m' p'' e => ?_⟩
        simp only [Decoded.err.injEq] at e
        rw [← e.1]
        exact h.1
      | bad =>
        exfalso
        have hnil : p.rest = [] ∧ o.needsByte = true := by
          cases hrest : p.rest with
          | nil =>
            rw [hrest] at hst
            cases o <;> first | exact ⟨rfl, rfl⟩ | simp [Op.stream] at hst
          | cons c t =>
            rw [hrest] at hst
            exfalso
            cases o <;> simp only [Op.stream] at hst <;> (repeat' split at hst) <;> cases hst
        have h1 := hne hnil.2
        have h2 := Parser.available_le_rest hp
        rw [hnil.1] at h2
        unfold Parser.available at h2
        simp at h2
        omega
    · have hn : o.needsByte = true := by
        cases o with
        | skipWhitespace => exact absurd trivial hfit
        | _ => rfl
      rcases Op.run_full (fuel := fuel) hp (hne hn) hfit with e | ⟨_, p', e⟩ <;> rw [e]
      · exact ⟨fun _ _ e => by simp at e, fun _ _ e => by simp at e⟩
      · refine ⟨fun _ _ e => by simp at e, fun m' p'' e => ?_⟩
        simp only [Decoded.err.injEq] at e
        rw [← e.1]
        exact h.1

theorem leaves_andThen {p : Prog τ} {f : τ → σ} {k : τ → Prog σ} {s : Str} (h : p.Leaves (fun m s' => (k m).Leaves ok err s') (fun m => err (f m)) s) :
    (p.andThen f k).Leaves ok err s := by
  induction p generalizing s with
  | done m => exact h
  | fail m => exact h
  | timeout => trivial
  | op o m k' ih => exact ⟨h.1, fun a s' e => ih a (h.2 a s' e)⟩

theorem leaves_nextType {m : σ} {k : JType → Prog σ} {s : Str} (hm : err m)
    (hk : ∀ w c t, s = w ++ c :: t → LooseSpace w → (k (symbolTable c)).Leaves ok err (c :: t)) : (nextType m k).Leaves ok err s := by
  refine ⟨hm, fun _ s1 h1 => ⟨hm, fun c s2 h2 => ?_⟩⟩
  obtain ⟨w, rfl, hw⟩ := loose_skipWhitespace h1
  obtain ⟨rfl, t, rfl⟩ := loose_current h2
  show Prog.Leaves ok err (if symbolTable c = .error then .fail m else k (symbolTable c)) (c :: t)
  split
  · exact hm
  · exact hk w c t rfl hw

theorem leaves_consume {t : Punct} {m : σ} {k : Prog σ} {s : Str} (hm : err m)
    (hk : ∀ w c u, s = w ++ c :: u → LooseSpace w → symbolTable c = t.type → k.Leaves ok err u) : (consume t m k).Leaves ok err s := by
  refine ⟨hm, fun _ s1 h1 => ⟨hm, fun c s2 h2 => ?_⟩⟩
  obtain ⟨w, rfl, hw⟩ := loose_skipWhitespace h1
  obtain ⟨c, rfl, hc⟩ := loose_consume h2
  exact hk w c s2 rfl hw hc

theorem leaves_readString {m : σ} {k : Str → Prog σ} {s : Str} (hm : err m)
    (hk : ∀ w lit u a, s = w ++ c!"\"" :: (lit ++ c!"\"" :: u) → LooseSpace w → Unquotes lit a → (k a).Leaves ok err u) : (readString m k).Leaves ok err s := by
  refine ⟨hm, fun _ s1 h1 => ⟨hm, fun a s2 h2 => ?_⟩⟩
  obtain ⟨w, rfl, hw⟩ := loose_skipWhitespace h1
  obtain ⟨lit, rfl, hl⟩ := exact_readString.mp h2
  exact hk w lit s2 a rfl hw hl

end

/-- Nothing behind the elements of a slice. -/
def CleanSlice {α : Type} (zero : α) (s : GoSlice α) : Prop := s.len ≤ s.cells.length ∧ ∀ i, s.len ≤ i → s.cells.getD i zero = zero

theorem fresh_cleanSlice {α : Type} {zero : α} {idx : Nat} {s : GoSlice α} (h : Fresh zero (· = zero) idx s) : CleanSlice zero s := by
  obtain ⟨h1, h2, h3⟩ := h
  unfold CleanSlice
  rw [h1]
  exact ⟨h2, h3⟩

/-- The elements that are decoded into a slice do not change what is behind it. -/
theorem sliceLoop_leaves {α : Type} {newCap : Nat → Nat → Nat} {zero : α} {d : ValueDecoder α} (fuel : Nat) {idx : Nat} {s : GoSlice α}
    (h : Fresh zero (· = zero) idx s) (t : Str) : (sliceLoop newCap zero d fuel idx s).Leaves (fun s _ => CleanSlice zero s) (CleanSlice zero) t := by
  induction fuel generalizing idx s t with
  | zero => trivial
  | succ fuel ih =>
    have hpush : ∀ el, Fresh zero (· = zero) (idx + 1) ((s.grow newCap zero (idx + 1)).set idx el) := fun el => (fresh_push (good := (· = zero)) rfl h el).1
    refine leaves_nextType (fresh_cleanSlice h) fun w c u _ _ => ?_
    split
    · exact leaves_consume (fresh_cleanSlice h) fun _ _ _ _ _ _ => fresh_cleanSlice h
    · exact leaves_andThen ((leaves_true _ _).mono (fun el s' _ => ih (hpush el) s') fun el _ => fresh_cleanSlice (hpush el))

/-- A span in whose memory there are no binary annotations at all. -/
def Blankened (s : SpanV1) : Prop := Fresh {} (· = {}) 0 s.binaryAnnotations

theorem blankened_clean {s : SpanV1} (h : Blankened s) : Clean s := fresh_cleanSlice h

theorem spanV1Fields_safe (newCap : Nat → Nat → Nat) (fuel : Nat) : ∀ f ∈ spanV1Fields newCap fuel, f.2.Safe := by
  intro f hf
  simp only [spanV1Fields, List.mem_cons, List.not_mem_nil, or_false] at hf
  rcases hf with rfl | rfl | rfl | rfl | rfl | rfl | rfl | rfl
  · exact (idValueDecoder_safe fuel).field
  · exact (idValueDecoder_safe fuel).field
  · exact (idValueDecoder_safe fuel).field
  · exact uint64ValueDecoder_safe.field
  · exact uint64ValueDecoder_safe.field
  · exact stringValueDecoder_safe.field
  · exact (makeSliceDecoder_safe (binaryAnnotation_safe fuel) fuel).field
  · exact (makeArrayDecoder_safe (annotation_safe fuel) fuel).field

/-- A value was read. -/
def ReadValue (u s : Str) : Prop := ∃ w v t, u = w ++ t ∧ LooseSpace w ∧ Begins v t s

theorem field_reads (newCap : Nat → Nat → Nat) {fuel : Nat} {name : Str} {d : ValueDecoder SpanV1} (hd : (spanV1Fields newCap fuel).lookup name = some d) {m : SpanV1}
    {u : Str} {ok : SpanV1 → Str → Prop} {err : SpanV1 → Prop} (h : (d m).Leaves ok err u) : (d m).Leaves (fun m' s => ok m' s ∧ ReadValue u s) err u := by
  refine (h.stream (r := false) (spanV1Fields_safe newCap fuel _ (lookup_mem hd) _ _)).mono (fun m' s hm => ⟨hm.1, ?_⟩) fun _ h => h
  obtain ⟨r', hm⟩ := hm.2
  rcases exactFields_spanV1 newCap name with ⟨d', h1, h2⟩ | ⟨h1, _⟩
  · have := h1 fuel
    rw [hd] at this
    injection this with this
    subst this
    obtain ⟨w, v, t, e, hw, hv, _⟩ := h2.sound hm
    exact ⟨w, v, t, e, hw, hv⟩
  · rw [h1] at hd; cases hd

theorem skipValue_reads (fuel : Nat) (u : Str) : (skipValue fuel).Leaves (fun _ s => ReadValue u s) (fun _ => True) u :=
  ((leaves_true _ _).stream (skipValue_safe fuel false)).mono (fun _ _ h => skipValue_sound h.2.choose_spec) fun _ h => h

theorem field_leaves {τ : Type} {get : SpanV1 → τ} {set : τ → SpanV1 → SpanV1} {d : ValueDecoder τ} {P : SpanV1 → Prop} {m : SpanV1} (h : ∀ x, P (set x m)) (s : Str) :
    (d.field get set m).Leaves (fun m _ => P m) P s :=
  leaves_andThen ((leaves_true _ _).mono (fun x _ _ => h x) fun x _ => h x)

/-- A field other than `binaryAnnotations` does not touch them; this one, decoded for the first time, leaves nothing behind its elements. -/
theorem spanV1Field_leaves (newCap : Nat → Nat → Nat) {fuel : Nat} {name : Str} {d : ValueDecoder SpanV1} (hd : (spanV1Fields newCap fuel).lookup name = some d)
    {m : SpanV1} (s : Str) :
    (name ≠ b!"binaryAnnotations" ∧ (d m).Leaves (fun m' _ => m'.binaryAnnotations = m.binaryAnnotations) (fun m' => m'.binaryAnnotations = m.binaryAnnotations) s) ∨
    (name = b!"binaryAnnotations" ∧ (Blankened m → (d m).Leaves (fun m' _ => Clean m') Clean s)) := by
  have hm := lookup_mem hd
  simp only [spanV1Fields, List.mem_cons, Prod.mk.injEq, List.not_mem_nil, or_false] at hm
  rcases hm with ⟨rfl, rfl⟩ | ⟨rfl, rfl⟩ | ⟨rfl, rfl⟩ | ⟨rfl, rfl⟩ | ⟨rfl, rfl⟩ | ⟨rfl, rfl⟩ | ⟨rfl, rfl⟩ | ⟨rfl, rfl⟩
  case' inr.inr.inr.inr.inr.inr.inl =>
    refine .inr ⟨rfl, fun hb => ?_⟩
    have hl : (makeSliceDecoder newCap fuel {} (makeStructDecoder fuel (binaryAnnotationV1Fields fuel)) m.binaryAnnotations).Leaves
        (fun s _ => CleanSlice {} s) (CleanSlice {}) s :=
      leaves_consume (fresh_cleanSlice hb) fun _ _ u _ _ _ => sliceLoop_leaves fuel hb u
    exact leaves_andThen (hl.mono (fun _ _ h => h) fun _ h => h)
  all_goals exact .inl ⟨by decide, field_leaves (P := fun m' => m'.binaryAnnotations = m.binaryAnnotations) (fun _ => rfl) _⟩

theorem structLoop_leaves (newCap : Nat → Nat → Nat) {data : Str} (hrep : ¬ Repeats b!"binaryAnnotations" data) (F fuel : Nat) {p u s : Str} (e : data = p ++ c!"{" :: u)
    {ms : List (Str × Loose)} (hms : MembersBefore ms u s) {m : SpanV1} (hc : Clean m) (hb : b!"binaryAnnotations" ∉ ms.map Prod.fst → Blankened m) :
    (structLoop F (spanV1Fields newCap F) fuel m).Leaves (fun m _ => Clean m) Clean s := by
  induction fuel generalizing s ms m with
  | zero => trivial
  | succ fuel ih =>
    refine leaves_nextType hc fun w c t e1 hw => ?_
    split
    · exact leaves_consume hc fun _ _ _ _ _ _ => hc
    · refine leaves_readString hc fun w1 lit u1 name e2 hw1 hl => ?_
      have es : s = (w ++ w1) ++ c!"\"" :: (lit ++ c!"\"" :: u1) := by rw [e1, e2, List.append_assoc]
      have hw' := looseSpace_append hw hw1
      -- the members up to the next one
      have hnext : ∀ {s'}, ReadValue u1 s' → ∃ v, MembersBefore (ms ++ [(name, v)]) u s' := by
        rintro s' ⟨w2, v, t2, e3, hw2, hv⟩
        exact ⟨v, membersBefore_snoc hms (by rw [es, e3]) hw' hl hw2 hv⟩
      cases hd : (spanV1Fields newCap F).lookup name with
      | none =>
        refine leaves_andThen ((skipValue_reads F u1).mono (fun _ s3 h3 => ?_) fun _ _ => hc)
        obtain ⟨v, hn⟩ := hnext h3
        refine ih hn hc (fun hn => hb ?_)
        simp only [List.map_append, List.mem_append, not_or] at hn
        exact hn.1
      | some d =>
        simp only
        rcases spanV1Field_leaves newCap hd (m := m) u1 with ⟨hname, hleave⟩ | ⟨hname, hleave⟩
        · have keep : ∀ m' : SpanV1, m'.binaryAnnotations = m.binaryAnnotations → Clean m' ∧ (Blankened m → Blankened m') := by
            intro m' hm'
            unfold Clean Blankened at *
            rw [hm']
            exact ⟨hc, id⟩
          refine leaves_andThen ((field_reads newCap hd hleave).mono (fun m' s3 h3 => ?_) fun m' h => (keep m' h).1)
          obtain ⟨v, hn⟩ := hnext h3.2
          have := keep m' h3.1
          refine ih hn this.1 (fun hn => this.2 (hb ?_))
          simp only [List.map_append, List.mem_append, not_or] at hn
          exact hn.1
        · subst hname
          have hn : b!"binaryAnnotations" ∉ ms.map Prod.fst := fun hn => hrep ⟨p, u, ms, s, e, hms, hn, w ++ w1, lit, u1, es, hw', hl⟩
          refine leaves_andThen ((field_reads newCap hd (hleave (hb hn))).mono (fun m' s3 h3 => ?_) fun m' h => h)
          obtain ⟨v, hn⟩ := hnext h3.2
          exact ih hn h3.1 (fun hn => absurd (by simp) hn)

theorem spanV1_leaves (newCap : Nat → Nat → Nat) {data : Str} (hrep : ¬ Repeats b!"binaryAnnotations" data) (fuel : Nat) {s : Str} (hs : s <:+ data) {m : SpanV1}
    (hm : Clean m) : (spanV1ValueDecoder newCap fuel m).Leaves (fun m _ => Clean m) Clean s := by
  have hb : Blankened m.reset := reset_fresh hm
  obtain ⟨p, rfl⟩ := hs
  refine leaves_consume (blankened_clean hb) fun w c u e hw hc => ?_
  have key : ∀ c : UInt8, symbolTable c = .objectBegin → c = c!"{" := byte_forall (by decide +kernel)
  have hc := key c hc
  subst hc
  exact structLoop_leaves newCap hrep fuel fuel (p := p ++ w) (by rw [e, List.append_assoc]) .nil (blankened_clean hb) (fun _ => hb)

theorem spanV1ValueDecoder_safe (newCap : Nat → Nat → Nat) (fuel : Nat) : (spanV1ValueDecoder newCap fuel).Safe :=
  fun m r => makeStructDecoder_safe (spanV1Fields_safe newCap fuel) fuel m.reset r

theorem sliceV1_leaves (newCap : Nat → Nat → Nat) {data : Str} (hrep : ¬ Repeats b!"binaryAnnotations" data) (F fuel idx : Nat) {t : Str} (ht : t <:+ data) {s : GoSlice SpanV1}
    (hs : Filling idx s) (hc : CleanPool s.cells) :
    (sliceLoop newCap {} (spanV1ValueDecoder newCap F) fuel idx s).Leaves (fun s _ => CleanPool s.cells) (fun s => CleanPool s.cells) t := by
  induction fuel generalizing idx s t with
  | zero => trivial
  | succ fuel ih =>
    refine leaves_nextType hc fun w c u e hw => ?_
    split
    · exact leaves_consume hc fun _ _ _ _ _ _ => hc
    · obtain ⟨_, _, h3⟩ := filling_grow (newCap := newCap) (zero := ({} : SpanV1)) hs
      have hsuf : c :: u <:+ data := List.IsSuffix.trans ⟨w, e.symm⟩ ht
      have hl := spanV1_leaves newCap hrep F hsuf (m := (s.grow newCap {} (idx + 1)).cells.getD idx {}) (by rw [h3]; exact cleanPool_getD.mp hc idx)
      have hset : ∀ el, Clean el → CleanPool ((s.grow newCap {} (idx + 1)).set idx el).cells := by
        intro el hel
        rw [cleanPool_getD]
        intro i
        have := cleanPool_getD.mp hc i
        rw [← h3] at this
        simp only [GoSlice.set, List.getD_eq_getElem?_getD, List.getElem?_set] at this ⊢
        split
        · split
          · exact hel
          · exact clean_default
        · exact this
      refine leaves_andThen ((hl.stream (r := false) (spanV1ValueDecoder_safe newCap F _ _)).mono (fun el s2 h2 => ?_) fun el h => hset el h)
      obtain ⟨r', h4⟩ := h2.2
      exact ih (idx + 1) ((Prog.stream_suffix h4).trans hsuf) (filling_set (abs := id) hs el).1 (hset el h2.1)

theorem bodyV1_leaves (newCap : Nat → Nat → Nat) {data : Str} (hrep : ¬ Repeats b!"binaryAnnotations" data) (fuel : Nat) {pool : List SpanV1} (hp : CleanPool pool) :
    (decoderSliceSpanV1 newCap fuel { cells := pool, len := 0 }).Leaves (fun s _ => CleanPool s.cells) (fun s => CleanPool s.cells) data := by
  refine leaves_consume hp fun w c u e hw hc => ?_
  exact sliceV1_leaves newCap hrep fuel fuel 0 ⟨w ++ [c], by rw [e, List.append_assoc]; rfl⟩ ⟨.inl rfl, Nat.zero_le _⟩ hp

end Verif
