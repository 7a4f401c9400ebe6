import Verif.Proofs.Accept
import Verif.Proofs.Truncate
import Verif.Props.Document

/-!
# What the parser of versions 1 and 2 accepts, exactly (C90)
-/

namespace Verif

open Spec

/-! ## A text has one reading -/

theorem space_unique {w w' t t' : Str} {c c' : UInt8} (hw : LooseSpace w) (hw' : LooseSpace w') (hc : isCharSpace c = false) (hc' : isCharSpace c' = false)
    (h : w ++ c :: t = w' ++ c' :: t') : w = w' ∧ c = c' ∧ t = t' := by
  induction w generalizing w' with
  | nil =>
    cases w' with
    | nil => injection h with h1 h2; exact ⟨rfl, h1, h2⟩
    | cons x w' =>
      injection h with h1 h2
      subst h1
      rw [sep_loose hw' c (by simp)] at hc
      cases hc
  | cons x w ih =>
    cases w' with
    | nil =>
      injection h with h1 h2
      subst h1
      rw [sep_loose hw x (by simp)] at hc'
      cases hc'
    | cons y w' =>
      injection h with h1 h2
      subst h1
      obtain ⟨e1, e2⟩ := ih (w' := w') (fun c hc => hw c (by simp [hc])) (fun c hc => hw' c (by simp [hc])) h2
      exact ⟨by rw [e1], e2⟩

theorem word_stream {t s : Str} (h : LooseWord t) : ∃ w, Op.stream (.readWord w) (t ++ s) = .ok t s ∧ t.head? = some w.first := by
  rcases h with ⟨hl, hh | hh⟩ | ⟨hl, hh⟩
  · exact ⟨.null, exact_readWord.mpr ⟨rfl, hl, hh⟩, hh⟩
  · exact ⟨.true, exact_readWord.mpr ⟨rfl, hl, hh⟩, hh⟩
  · exact ⟨.false, exact_readWord.mpr ⟨rfl, hl, hh⟩, hh⟩

theorem unquote_unique {lit lit' v v' s s' : Str} (h : Unquotes lit v) (h' : Unquotes lit' v') (e : lit ++ c!"\"" :: s = lit' ++ c!"\"" :: s') : v = v' ∧ s = s' := by
  have h1 := exact_readString (s' := s).mpr ⟨lit, rfl, h⟩
  have h2 := exact_readString (s' := s').mpr ⟨lit', rfl, h'⟩
  rw [e, h2] at h1
  injection h1 with h1 h3
  exact ⟨h1.symm, h3.symm⟩

theorem type_eq {v v' : Loose} {t s s' : Str} (h : Begins v t s) (h' : Begins v' t s') : v.type = v'.type := by
  obtain ⟨c, t1, e, h1, _⟩ := begins_type h
  obtain ⟨c', t1', e', h1', _⟩ := begins_type h'
  rw [e] at e'
  injection e' with e'
  rw [← h1, ← h1', e']

mutual

theorem begins_unique : ∀ {v v' : Loose} {t s s' : Str}, Begins v t s → Begins v' t s' → v = v' ∧ s = s'
  | _, v', _, _, s', .word (t := t) (s := s) h, h' => by
    have hty := type_eq (.word (s := s) h) h'
    obtain ⟨w, h1, hw⟩ := word_stream (s := s) h
    generalize he : t ++ s = u at h' h1
    cases h' with
    | word k =>
      rename_i t'
      obtain ⟨w', k1, hw'⟩ := word_stream (s := s') k
      have e : w = w' := by
        have hh : t.head? = t'.head? := by
          cases t with
          | nil => simp at hw
          | cons c t =>
            cases t' with
            | nil => simp at hw'
            | cons c' t' => injection he with he; simp [he]
        rw [hw, hw'] at hh
        injection hh with hh
        cases w <;> cases w' <;> first | rfl | exact absurd hh (by decide)
      subst e
      rw [k1] at h1
      injection h1 with h1 h2
      exact ⟨by rw [h1], h2.symm⟩
    | _ => exfalso; simp only [Loose.type] at hty; split at hty <;> cases hty
  | _, v', _, _, s', .number (t := t) (s := s) h hs, h' => by
    have hty := type_eq (.number h hs) h'
    have h1 := exact_readNumber.mpr ⟨rfl, h, hs⟩
    generalize he : t ++ s = u at h' h1
    cases h' with
    | number k ks =>
      rw [exact_readNumber.mpr ⟨rfl, k, ks⟩] at h1
      injection h1 with h1 h2
      exact ⟨by rw [h1], h2.symm⟩
    | word k => exfalso; simp only [Loose.type] at hty; split at hty <;> cases hty
    | _ => cases hty
  | _, v', _, _, s', .string (lit := lit) (v := v) (s := s) h, h' => by
    have hty := type_eq (.string h) h'
    generalize he : c!"\"" :: (lit ++ c!"\"" :: s) = u at h'
    cases h' with
    | string k =>
      injection he with _ he
      obtain ⟨e1, e2⟩ := unquote_unique h k he
      exact ⟨by rw [e1], e2⟩
    | word k => exfalso; simp only [Loose.type] at hty; split at hty <;> cases hty
    | _ => cases hty
  | _, v', _, _, s', .array (u := u0) h, h' => by
    have hty := type_eq (.array h) h'
    generalize he : c!"[" :: u0 = u at h'
    cases h' with
    | array k =>
      injection he with _ he
      subst he
      obtain ⟨e1, e2⟩ := beginsElements_unique h k
      exact ⟨by rw [e1], e2⟩
    | word k => exfalso; simp only [Loose.type] at hty; split at hty <;> cases hty
    | _ => cases hty
  | _, v', _, _, s', .object (u := u0) h, h' => by
    have hty := type_eq (.object h) h'
    generalize he : c!"{" :: u0 = u at h'
    cases h' with
    | object k =>
      injection he with _ he
      subst he
      obtain ⟨e1, e2⟩ := beginsMembers_unique h k
      exact ⟨by rw [e1], e2⟩
    | word k => exfalso; simp only [Loose.type] at hty; split at hty <;> cases hty
    | _ => cases hty

theorem beginsElements_unique : ∀ {l l' : List Loose} {u s s' : Str}, BeginsElements l u s → BeginsElements l' u s' → l = l' ∧ s = s'
  | _, _, _, _, s', .nil (w := w) (s := s) hw, h' => by
    generalize he : w ++ c!"]" :: s = u at h'
    cases h' with
    | nil hw' =>
      obtain ⟨_, _, e⟩ := space_unique hw hw' (by decide) (by decide) he
      exact ⟨rfl, e⟩
    | cons hw' hv _ =>
      obtain ⟨c, t, rfl, h1, h2, _⟩ := begins_type hv
      obtain ⟨_, e, _⟩ := space_unique hw hw' (by decide) h2 he
      rw [← e] at h1
      exact absurd h1.symm (type_ne_end _).1
  | _, _, _, _, s', .cons (w := w) (t := t) hw hv hl, h' => by
    obtain ⟨c, t1, e1, h1, h2, _⟩ := begins_type hv
    generalize he : w ++ t = u at h'
    cases h' with
    | nil hw' =>
      rw [e1] at he
      obtain ⟨_, e, _⟩ := space_unique hw hw' h2 (by decide) he
      rw [e] at h1
      exact absurd h1.symm (type_ne_end _).1
    | cons hw' hv' hl' =>
      obtain ⟨c', t1', e1', h1', h2', _⟩ := begins_type hv'
      rw [e1, e1'] at he
      obtain ⟨_, e, e'⟩ := space_unique hw hw' h2 h2' he
      rw [e1', ← e, ← e', ← e1] at hv'
      obtain ⟨k1, k2⟩ := begins_unique hv hv'
      subst k1 k2
      obtain ⟨k3, k4⟩ := beginsElements_unique hl hl'
      exact ⟨by rw [k3], k4⟩

theorem beginsMembers_unique : ∀ {ms ms' : List (Str × Loose)} {u s s' : Str}, BeginsMembers ms u s → BeginsMembers ms' u s' → ms = ms' ∧ s = s'
  | _, _, _, _, s', .nil (w := w) (s := s) hw, h' => by
    generalize he : w ++ c!"}" :: s = u at h'
    cases h' with
    | nil hw' =>
      obtain ⟨_, _, e⟩ := space_unique hw hw' (by decide) (by decide) he
      exact ⟨rfl, e⟩
    | cons hw' hk hw2 hv _ =>
      obtain ⟨_, e, _⟩ := space_unique hw hw' (by decide) (by decide) he
      exact absurd e (by decide)
  | _, _, _, _, s', .cons (w := w) (lit := lit) (w' := w1) (t := t) hw hk hw1 hv hl, h' => by
    generalize he : w ++ c!"\"" :: (lit ++ c!"\"" :: (w1 ++ t)) = u at h'
    cases h' with
    | nil hw' =>
      obtain ⟨_, e, _⟩ := space_unique hw hw' (by decide) (by decide) he
      exact absurd e (by decide)
    | cons hw' hk' hw1' hv' hl' =>
      obtain ⟨_, _, e⟩ := space_unique hw hw' (by decide) (by decide) he
      obtain ⟨ek, e⟩ := unquote_unique hk hk' e
      obtain ⟨c, t1, e1, h1, h2, _⟩ := begins_type hv
      obtain ⟨c', t1', e1', h1', h2', _⟩ := begins_type hv'
      rw [e1, e1'] at e
      obtain ⟨_, e, e'⟩ := space_unique hw1 hw1' h2 h2' e
      rw [e1', ← e, ← e', ← e1] at hv'
      obtain ⟨k1, k2⟩ := begins_unique hv hv'
      subst k1 k2
      obtain ⟨k3, k4⟩ := beginsMembers_unique hl hl'
      exact ⟨by rw [k3, ek], k4⟩

end

theorem body_unique {data : Str} {l l' : List Loose} (h : Body data l) (h' : Body data l') : l = l' := by
  obtain ⟨w, t, s, e, hw, hb⟩ := h
  obtain ⟨w', t', s', e', hw', hb'⟩ := h'
  obtain ⟨c, t1, e1, _, h2, _⟩ := begins_type hb
  obtain ⟨c', t1', e1', _, h2', _⟩ := begins_type hb'
  rw [e, e1, e1'] at e'
  obtain ⟨_, k1, k2⟩ := space_unique hw hw' h2 h2' e'
  rw [e1', ← k1, ← k2, ← e1] at hb'
  have := (begins_unique hb hb').1
  injection this

/-! ## Version 2 -/

theorem list_write {α : Type} (m : Cells α) (a : α) : (m.write m.len a).list = m.list ++ [a] := by
  simp only [Cells.list, Cells.write, List.range_succ, List.map_append, List.map_cons, List.map_nil, if_true, List.append_cancel_right_eq]
  refine List.map_congr_left fun i hi => ?_
  rw [if_neg]
  exact Nat.ne_of_lt (List.mem_range.mp hi)

theorem fill_const {α : Type} (g : Loose → Option α) (l : List Loose) (m : Cells α) :
    (m.fill (fun v _ => g v) m.len l).map Cells.list = (l.mapM g).map (m.list ++ ·) := by
  induction l generalizing m with
  | nil => simp [Cells.fill]
  | cons v l ih =>
    simp only [Cells.fill, List.mapM_cons, Option.bind_eq_bind, Option.pure_def]
    cases hg : g v with
    | none => rfl
    | some a =>
      simp only [Option.bind_some]
      have := ih (m.write m.len a)
      rw [list_write] at this
      refine Eq.trans this ?_
      cases l.mapM g with
      | none => rfl
      | some vs => simp

theorem absSlice_elems {σ τ : Type} {zero : σ} {abs : σ → τ} {s : GoSlice σ} (h : s.len ≤ s.cells.length) : (absSlice zero abs s).list = s.elems.map abs := by
  apply List.ext_getElem?
  intro i
  simp only [Cells.list, absSlice, GoSlice.elems, List.getElem?_map, List.getElem?_take]
  by_cases hi : i < s.len
  · rw [if_pos hi, List.getElem?_range hi, Option.map_some, List.getD_eq_getElem?_getD, List.getElem?_eq_getElem (by omega)]
    simp
  · rw [if_neg hi, List.getElem?_eq_none (by simpa using hi)]
    rfl

/-! ## Slices stay within their arrays -/

section
variable {σ : Type}

/-- What a decoded slice is like. -/
structure Within (zero : σ) (P : σ → Prop) (s : GoSlice σ) : Prop where
  len : s.len ≤ s.cells.length
  elem : ∀ j, j < s.len → P (s.cells.getD j zero)

theorem sliceLoop_within {newCap : Nat → Nat → Nat} {zero : σ} {P : σ → Prop} {d : ValueDecoder σ}
    (hd : ∀ {m m' : σ} {r r' : Bool} {u s : Str}, (d m).stream r u = .ok m' r' s → P m') (fuel : Nat) {idx : Nat} {s s' : GoSlice σ} {r r' : Bool} {u t : Str}
    (hf : Filling idx s) (hs : Within zero P s) (h : (sliceLoop newCap zero d fuel idx s).stream r u = .ok s' r' t) :
    Within zero P s' ∧ s.cells.length ≤ s'.cells.length := by
  induction fuel generalizing idx s r u with
  | zero => cases h
  | succ fuel ih =>
    unfold sliceLoop at h
    obtain ⟨w, c, t, r1, rfl, hw, _, g⟩ := nextType_ok h
    split at g
    · obtain ⟨w', c', u', r2, e, hw', hc, g⟩ := consume_ok g
      injection g with g1 _ g2
      subst g1
      exact ⟨hs, Nat.le_refl _⟩
    · simp only at g
      obtain ⟨m1, r3, s1, h1, h2⟩ := stream_andThen_ok g
      have hp := hd h1
      obtain ⟨g1, g2, g3⟩ := filling_grow (newCap := newCap) (zero := zero) hf
      obtain ⟨k1, k2⟩ := filling_set (abs := id) (newCap := newCap) (zero := zero) hf m1
      have hlen : s.cells.length ≤ ((s.grow newCap zero (idx + 1)).set idx m1).cells.length := by
        simp only [GoSlice.set, List.length_set, GoSlice.grow]
        split
        · exact Nat.le_refl _
        · simp only [List.length_append, List.length_replicate, GoSlice.elems, List.length_take]; omega
      have hw1 : Within zero P ((s.grow newCap zero (idx + 1)).set idx m1) := by
        refine ⟨?_, fun j hj => ?_⟩
        · have := k1.2
          simp only [GoSlice.set] at this ⊢
          rw [g1]; exact this
        · have hcell := congrArg (fun c : Cells σ => c.cell j) k2
          simp only [absSlice, Cells.write, id] at hcell
          rw [hcell]
          split
          · exact hp
          · rename_i hne
            have hj' : j < idx + 1 := by
              have : ((s.grow newCap zero (idx + 1)).set idx m1).len = idx + 1 := g1
              omega
            rcases hf.1 with h0 | h0
            · omega
            · exact hs.elem j (by omega)
      obtain ⟨e1, e2⟩ := ih k1 hw1 h2
      exact ⟨e1, Nat.le_trans hlen e2⟩

theorem slice_within {newCap : Nat → Nat → Nat} {zero : σ} {P : σ → Prop} {d : ValueDecoder σ} {fuel : Nat}
    (hd : ∀ {m m' : σ} {r r' : Bool} {u s : Str}, (d m).stream r u = .ok m' r' s → P m') {s s' : GoSlice σ} {r r' : Bool} {u t : Str}
    (hs : Within zero P s) (h : (makeSliceDecoder newCap fuel zero d s).stream r u = .ok s' r' t) : Within zero P s' ∧ s.cells.length ≤ s'.cells.length := by
  obtain ⟨w, c, u', r1, rfl, hw, hc, g⟩ := consume_ok h
  exact sliceLoop_within hd fuel ⟨.inl rfl, Nat.zero_le _⟩ hs g

/-- Successful decoding keeps the invariant. -/
def KeepsInv (P : σ → Prop) (d : ValueDecoder σ) : Prop := ∀ (m m' : σ) (r r' : Bool) (u s : Str), P m → (d m).stream r u = .ok m' r' s → P m'

theorem struct_keepsInv {P : σ → Prop} {fields : List (Str × ValueDecoder σ)} (hf : ∀ p ∈ fields, KeepsInv P p.2) (fuel : Nat) : KeepsInv P (makeStructDecoder fuel fields) := by
  have key : ∀ F fuel {m m' : σ} {r r' : Bool} {u s : Str}, P m → (structLoop F fields fuel m).stream r u = .ok m' r' s → P m' := by
    intro F fuel
    induction fuel with
    | zero => intro _ _ _ _ _ _ _ h; cases h
    | succ fuel ih =>
      intro m m' r r' u s hm h
      unfold structLoop at h
      obtain ⟨w, c, t, r1, rfl, hw, _, g⟩ := nextType_ok h
      split at g
      · obtain ⟨w', c', u', r2, e, hw', hc, g⟩ := consume_ok g
        injection g with g1 _ g2
        subst g1
        exact hm
      · obtain ⟨w', lit, u', r2, name, e, hw', hl, g⟩ := readString_exact g
        split at g
        · rename_i d hd
          obtain ⟨m1, r3, s1, h1, h2⟩ := stream_andThen_ok g
          exact ih (hf _ (lookup_mem hd) _ _ _ _ _ _ hm h1) h2
        · obtain ⟨m1, r3, s1, h1, h2⟩ := stream_andThen_ok g
          exact ih hm h2
  intro m m' r r' u s hm h
  obtain ⟨w, c, u', r1, rfl, hw, hc, g⟩ := consume_ok h
  exact key _ _ hm g

theorem field_keepsInv {ρ : Type} {P : σ → Prop} {d : ValueDecoder ρ} {get : σ → ρ} {set : ρ → σ → σ}
    (h : ∀ (m : σ) (x : ρ) (r r' : Bool) (u s : Str), P m → (d (get m)).stream r u = .ok x r' s → P (set x m)) : KeepsInv P (d.field get set) := by
  intro m m' r r' u s hm hst
  obtain ⟨x, r1, s1, h1, h2⟩ := stream_andThen_ok hst
  injection h2 with e1 _ e2
  subst e1
  exact h _ _ _ _ _ _ hm h1

end

/-- The binary annotations are in the array. -/
def SpanV1.Sane (s : SpanV1) : Prop := s.binaryAnnotations.len ≤ s.binaryAnnotations.cells.length

theorem spanV1_sane {newCap : Nat → Nat → Nat} {fuel : Nat} {m m' : SpanV1} {r r' : Bool} {u s : Str} (h : (spanV1ValueDecoder newCap fuel m).stream r u = .ok m' r' s) : m'.Sane := by
  have hk : KeepsInv SpanV1.Sane (makeStructDecoder fuel (spanV1Fields newCap fuel)) := by
    refine struct_keepsInv ?_ fuel
    intro p hp
    simp only [spanV1Fields, List.mem_cons, List.not_mem_nil, or_false] at hp
    rcases hp with rfl | rfl | rfl | rfl | rfl | rfl | rfl | rfl
    case inr.inr.inr.inr.inr.inr.inl =>
      refine field_keepsInv fun m x r r' u s hm h => ?_
      exact (slice_within (P := fun _ => True) (fun _ => trivial) ⟨hm, fun _ _ => trivial⟩ h).1.len
    all_goals exact field_keepsInv fun _ _ _ _ _ _ hm _ => hm
  exact hk m.reset _ _ _ _ _ (Nat.zero_le _) h

/-- Only what is in memory matters. -/
theorem toSpanV1_mem {s : SpanV1} (h : s.Sane) : s.toSpan = (absV1 s).span.toSpan := by
  have he : (absV1 s).span.binaryAnnotations.elems = s.binaryAnnotations.elems := by
    have := absSlice_elems (zero := ({} : BinaryAnnotationV1)) (abs := id) h
    simp only [List.map_id_fun, id_eq] at this
    simp only [MemV1.span, GoSlice.elems, absV1]
    rw [this]
    simp only [GoSlice.elems, List.take_take, absSlice, Nat.min_self]
  simp only [SpanV1.toSpan, he]
  rfl

/-! ## C90 -/

/-- The memory of a pooled slice. -/
def poolMemory (pool : List SpanV1) : Cells MemV1 := absSlice {} absV1 { cells := pool, len := 0 }

/-- Version 2. A body is accepted if and only if it begins with an array of spans, written as described in `Spec/Accept.lean`; the answer consists of these spans. -/
theorem C90_v2 (data : Str) :
    (∀ vs, BodyV2 data vs → ∃ spans, Pairwise₂ MeansV2 vs spans ∧ ParsesV2 data spans) ∧ ((¬ ∃ vs, BodyV2 data vs) → RejectsV2 data) := by
  constructor
  · rintro vs ⟨l, ⟨w, t, s, rfl, hw, hb⟩, hl⟩
    refine ⟨_, pairwise_map _ toSpanV2_means vs, fun newCap r buf hr hfit h0 => ?_⟩
    have hfill := fill_const Loose.toSpanV2 l (absSlice ({} : SpanV2) id { cells := [], len := 0 })
    rw [hl] at hfill
    obtain ⟨m, hm, hlist⟩ := Option.map_eq_some_iff.mp hfill
    obtain ⟨m', N, e, hN⟩ := (exact_bodyV2 newCap).complete (m := { cells := [], len := 0 }) hb hm
    have hst := hN N (Nat.le_refl _) w false hw
    have hwithin := (slice_within (P := fun _ => True) (fun _ => trivial) ⟨Nat.le_refl _, fun _ _ => trivial⟩ hst).1
    have := outcomeV2_returns h0 hfit ((decodesV2 newCap).settles_of hst (by simp)) r buf hr (Nat.le_refl _)
    have he : m'.elems = vs := by
      have h1 := absSlice_elems (zero := ({} : SpanV2)) (abs := id) hwithin.len
      rw [e, hlist] at h1
      simpa [absSlice, Cells.list] using h1.symm
    rw [outcomeV2, he] at this
    exact this
  · intro hno newCap r buf hr hfit h0
    have hs := (decodesV2 newCap).settles data
    have hret := outcomeV2_returns h0 hfit hs r buf hr (Nat.le_refl _)
    cases ho : (decoderSliceSpanV2 newCap (2 * data.length + 1) { cells := [], len := 0 }).stream false data with
    | ok m b q =>
      exfalso
      obtain ⟨w, v, t, e, hw, hv, hI⟩ := (exact_bodyV2 newCap).sound ho
      cases hv with
      | array hv =>
        rename_i l u
        have hfill := fill_const Loose.toSpanV2 l (absSlice ({} : SpanV2) id { cells := [], len := 0 })
        simp only [Loose.toCells] at hI
        rw [show (absSlice ({} : SpanV2) id { cells := [], len := 0 }).len = 0 from rfl, hI] at hfill
        obtain ⟨vs, h1, _⟩ := Option.map_eq_some_iff.mp hfill.symm
        exact hno ⟨vs, _, ⟨w, _, _, e, hw, .array hv⟩, h1⟩
      | _ => simp [Loose.toCells] at hI
    | err m => rw [ho] at hret; exact hret
    | bad => exact absurd ho hs.noBad
    | timeout => exact absurd ho hs.noTimeout

/-- There is one reading of a body. -/
theorem C90_unique {data : Str} {vs vs' : List SpanV2} (h : BodyV2 data vs) (h' : BodyV2 data vs') : vs = vs' := by
  obtain ⟨l, h1, h2⟩ := h
  obtain ⟨l', h1', h2'⟩ := h'
  rw [body_unique h1 h1', h2'] at h2
  injection h2 with h2
  exact h2.symm

/-- Version 1: on given memory. -/
theorem C90_v1 (newCap : Nat → Nat → Nat) (data : Str) (pool : List SpanV1) {after : Cells MemV1} (h : BodyV1 data (poolMemory pool) after) :
    ∃ spans pool', Pairwise₂ (fun m s => MeansV1 (MemV1.span m) s) after.list spans ∧ ParsesV1 newCap data pool spans pool' ∧ pool'.length = pool.length ∧
      ∀ i, i < pool.length → (poolMemory pool').cell i = after.cell i := by
  obtain ⟨l, ⟨w, t, s, rfl, hw, hb⟩, hl⟩ := h
  obtain ⟨m', N, e, hN⟩ := (exact_bodyV1 newCap).complete (m := { cells := pool, len := 0 }) hb hl
  have hst := hN N (Nat.le_refl _) w false hw
  obtain ⟨hwithin, hlen⟩ := slice_within (P := SpanV1.Sane) (fun h => spanV1_sane h) ⟨Nat.zero_le _, fun j hj => absurd hj (Nat.not_lt_zero _)⟩ hst
  have hlist : after.list = m'.elems.map absV1 := by rw [← e, absSlice_elems hwithin.len]
  have hsane : ∀ v ∈ m'.elems, v.Sane := by
    intro v hv
    obtain ⟨i, hi, rfl⟩ := List.getElem_of_mem hv
    have hi' : i < m'.len := by
      simp only [GoSlice.elems, List.length_take] at hi; omega
    have := hwithin.elem i hi'
    rw [List.getD_eq_getElem?_getD, List.getElem?_eq_getElem (by have := hwithin.len; omega)] at this
    simpa [GoSlice.elems] using this
  refine ⟨m'.elems.map SpanV1.toSpan, m'.cells.take pool.length, ?_, parsesV1_of_stream hst, ?_, ?_⟩
  · rw [hlist]
    clear hlist hst hwithin hlen e hl hN hb
    generalize m'.elems = vs at hsane
    induction vs with
    | nil => exact .nil
    | cons v vs ih =>
      refine .cons ?_ (ih fun v hv => hsane v (by simp [hv]))
      rw [toSpanV1_mem (hsane v (by simp))]
      exact toSpanV1_means _
  · rw [List.length_take]
    exact Nat.min_eq_left hlen
  · intro i hi
    rw [← e]
    simp only [poolMemory, absSlice, List.getD_eq_getElem?_getD, List.getElem?_take, if_pos hi]

/-! ### Whether a body is accepted does not depend on the memory -/

/-- Both fail, or both succeed. -/
def Agree {α : Type} (R : α → α → Prop) (f : α → Option α) : Prop := ∀ a a', R a a' → (f a = none ∧ f a' = none) ∨ ∃ b b', f a = some b ∧ f a' = some b' ∧ R b b'

section
variable {α β : Type} {R : α → α → Prop}

theorem agree_members {f : Str → Loose → α → Option α} (h : ∀ name v, Agree R (f name v)) (v : Loose) : Agree R (v.members f) := by
  cases v with
  | object ms =>
    intro a a' ha
    simp only [Loose.members]
    induction ms generalizing a a' with
    | nil => exact .inr ⟨a, a', rfl, rfl, ha⟩
    | cons m ms ih =>
      simp only [List.foldlM_cons, Option.bind_eq_bind]
      rcases h m.1 m.2 a a' ha with ⟨h1, h2⟩ | ⟨b, b', h1, h2, hb⟩
      · rw [h1, h2]; exact .inl ⟨rfl, rfl⟩
      · rw [h1, h2]; exact ih b b' hb
  | _ => exact fun _ _ _ => .inl ⟨rfl, rfl⟩

theorem agree_field {S : β → β → Prop} {g : β → Option β} (hg : Agree S g) {get : α → β} {set : β → α → α} (h1 : ∀ a a', R a a' → S (get a) (get a'))
    (h2 : ∀ x x' a a', R a a' → S x x' → R (set x a) (set x' a')) : Agree R (fun a => (g (get a)).map fun x => set x a) := by
  intro a a' ha
  rcases hg _ _ (h1 a a' ha) with ⟨e1, e2⟩ | ⟨b, b', e1, e2, hb⟩
  · exact .inl ⟨by simp only [e1, Option.map_none], by simp only [e2, Option.map_none]⟩
  · exact .inr ⟨_, _, by simp only [e1, Option.map_some], by simp only [e2, Option.map_some], h2 _ _ _ _ ha hb⟩

theorem agree_const (g : Option β) {set : β → α → α} (h2 : ∀ x a a', R a a' → R (set x a) (set x a')) : Agree R (fun a => g.map fun x => set x a) := by
  intro a a' ha
  cases g with
  | none => exact .inl ⟨rfl, rfl⟩
  | some x => exact .inr ⟨_, _, rfl, rfl, h2 x a a' ha⟩

theorem agree_some : Agree R (some : α → Option α) := fun a a' ha => .inr ⟨a, a', rfl, rfl, ha⟩

theorem agree_ite {c : Prop} [Decidable c] {f g : α → Option α} (hf : Agree R f) (hg : Agree R g) : Agree R (fun a => if c then f a else g a) := by
  by_cases h : c
  · simp only [if_pos h]; exact hf
  · simp only [if_neg h]; exact hg

end

theorem agree_endpoint (name : Str) (v : Loose) : Agree (fun _ _ => True) (endpointMember name v) :=
  agree_ite (agree_const _ fun _ _ _ _ => trivial) agree_some

theorem agree_binary (name : Str) (v : Loose) : Agree (fun _ _ => True) (binaryAnnotationMember name v) :=
  agree_ite (agree_const _ fun _ _ _ _ => trivial) <| agree_ite (agree_const _ fun _ _ _ _ => trivial) <|
    agree_ite (agree_field (agree_members agree_endpoint v) (fun _ _ _ => trivial) (fun _ _ _ _ _ _ => trivial)) agree_some

theorem agree_annotation (name : Str) (v : Loose) : Agree (fun _ _ => True) (annotationMember name v) :=
  agree_ite (agree_const _ fun _ _ _ _ => trivial) <| agree_ite (agree_const _ fun _ _ _ _ => trivial) <|
    agree_ite (agree_field (agree_members agree_endpoint v) (fun _ _ _ => trivial) (fun _ _ _ _ _ _ => trivial)) agree_some

theorem agree_fill {α : Type} {f : Loose → α → Option α} (h : ∀ v, Agree (fun _ _ => True) (f v)) (l : List Loose) (i : Nat) :
    Agree (fun _ _ => True) (fun m : Cells α => m.fill f i l) := by
  induction l generalizing i with
  | nil => exact agree_some
  | cons v l ih =>
    intro a a' _
    simp only [Cells.fill, Option.bind_eq_bind]
    rcases h v (a.cell i) (a'.cell i) trivial with ⟨h1, h2⟩ | ⟨b, b', h1, h2, hb⟩
    · rw [h1, h2]; exact .inl ⟨rfl, rfl⟩
    · rw [h1, h2]; exact ih (i + 1) _ _ trivial

theorem agree_fillList {α : Type} {f : Loose → α → Option α} (h : ∀ v, Agree (fun _ _ => True) (f v)) (l : List Loose) (i : Nat) :
    Agree (fun a a' => a.length = a'.length) (fillList f i l) := by
  induction l generalizing i with
  | nil => exact agree_some
  | cons v l ih =>
    intro a a' ha
    simp only [fillList]
    by_cases hi : i < a.length
    · rw [List.getElem?_eq_getElem hi, List.getElem?_eq_getElem (ha ▸ hi)]
      simp only
      rcases h v a[i] (a'[i]'(ha ▸ hi)) trivial with ⟨h1, h2⟩ | ⟨b, b', h1, h2, hb⟩
      · rw [h1, h2]; exact .inl ⟨rfl, rfl⟩
      · rw [h1, h2]; exact ih (i + 1) _ _ (by simpa using ha)
    · rw [List.getElem?_eq_none (by omega), List.getElem?_eq_none (by omega)]
      exact ih (i + 1) _ _ ha

theorem agree_spanV1 (name : Str) (v : Loose) : Agree (fun a a' : MemV1 => a.annotations.length = a'.annotations.length) (spanV1Member name v) := by
  refine agree_ite (agree_const _ fun _ _ _ h => h) <| agree_ite (agree_const _ fun _ _ _ h => h) <| agree_ite (agree_const _ fun _ _ _ h => h) <|
    agree_ite (agree_const _ fun _ _ _ h => h) <| agree_ite (agree_const _ fun _ _ _ h => h) <| agree_ite (agree_const _ fun _ _ _ h => h) <|
    agree_ite ?_ <| agree_ite ?_ agree_some
  · refine agree_field (S := fun _ _ => True) (g := v.toCells fun v => v.members binaryAnnotationMember) (get := MemV1.binaryAnnotations) (set := fun x s => { s with binaryAnnotations := x }) ?_
      (fun _ _ _ => trivial) (fun _ _ _ _ h _ => h)
    cases v with
    | array l => exact agree_fill (fun v => agree_members agree_binary v) l 0
    | _ => exact fun _ _ _ => .inl ⟨rfl, rfl⟩
  · refine agree_field (S := fun a a' => a.length = a'.length) (g := v.toList fun v => v.members annotationMember) (get := MemV1.annotations) (set := fun x s => { s with annotations := x }) ?_
      (fun _ _ h => h) (fun _ _ _ _ _ h => h)
    cases v with
    | array l => exact agree_fillList (fun v => agree_members agree_annotation v) l 0
    | _ => exact fun _ _ _ => .inl ⟨rfl, rfl⟩

theorem toMemV1_agree (v : Loose) : Agree (fun _ _ => True) v.toMemV1 := by
  intro a a' _
  rcases agree_members agree_spanV1 v a.clear a'.clear rfl with h | ⟨b, b', h1, h2, _⟩
  · exact .inl h
  · exact .inr ⟨b, b', h1, h2, trivial⟩

theorem fill_accepts (l : List Loose) (i : Nat) (m : Cells MemV1) : m.fill Loose.toMemV1 i l ≠ none ↔ ∀ v ∈ l, v.toMemV1 {} ≠ none := by
  induction l generalizing i m with
  | nil => simp [Cells.fill]
  | cons v l ih =>
    simp only [Cells.fill, Option.bind_eq_bind, List.forall_mem_cons]
    rcases toMemV1_agree v (m.cell i) {} trivial with ⟨h1, h2⟩ | ⟨b, b', h1, h2, hb⟩
    · rw [h1, h2]; simp
    · rw [h1, h2, Option.bind_some]
      have := ih (i + 1) (m.write i b)
      simpa using this

/-- Version 1: a body is accepted if and only if it begins with an array of spans; this does not depend on the memory. -/
theorem C90_v1_accepts (data : Str) : (IsBodyV1 data → ∀ before, ∃ after, BodyV1 data before after) ∧ (¬ IsBodyV1 data → RejectsV1 data) := by
  constructor
  · rintro ⟨l, hb, hl⟩ before
    have := (fill_accepts l 0 before).mpr hl
    cases hf : before.fill Loose.toMemV1 0 l with
    | none => exact absurd hf this
    | some after => exact ⟨after, l, hb, hf⟩
  · intro hno newCap r buf pool hr hfit h0
    have hs := (decodesV1 newCap pool).settles data
    obtain ⟨E, hret⟩ := outcomeV1_returns h0 hfit hs r buf hr (Nat.le_refl _)
    refine ⟨E, fun fuel hf => ?_⟩
    have hret := hret fuel hf
    simp only at hret
    cases ho : (decoderSliceSpanV1 newCap (2 * data.length + 1) { cells := pool, len := 0 }).stream false data with
    | ok m b q =>
      exfalso
      obtain ⟨w, v, t, e, hw, hv, hI⟩ := (exact_bodyV1 newCap).sound ho
      cases hv with
      | array hv =>
        simp only [Loose.toCells] at hI
        exact hno ⟨_, ⟨w, _, _, e, hw, .array hv⟩, (fill_accepts _ 0 _).mp (by rw [hI]; simp)⟩
      | _ => simp [Loose.toCells] at hI
    | err m => rw [ho] at hret; simp only [hret, outcomeV1]
    | bad => exact absurd ho hs.noBad
    | timeout => exact absurd ho hs.noTimeout

theorem C90_unique_v1 {data : Str} {before after after' : Cells MemV1} (h : BodyV1 data before after) (h' : BodyV1 data before after') : after = after' := by
  obtain ⟨l, h1, h2⟩ := h
  obtain ⟨l', h1', h2'⟩ := h'
  rw [body_unique h1 h1', h2'] at h2
  injection h2 with h2
  exact h2.symm

/-! ### Skipping -/

/-- For every input: `Skip` consumes exactly the value at its beginning, if there is one in the sense of `Spec/Accept.lean`; otherwise it fails. -/
theorem C24_exact (data : Str) :
    (∀ w v t s, data = w ++ t → LooseSpace w → Begins v t s → SkipLeaves data s) ∧
    ((¬ ∃ w v t s, data = w ++ t ∧ LooseSpace w ∧ Begins v t s) → SkipFails data) := by
  constructor
  · rintro w v t s rfl hw hv r buf hr hfit h0
    obtain ⟨N, hN⟩ := skipValue_begins hv
    exact runs_of_stream (fun fuel => skipValue fuel) (fun fuel hf => hN fuel hf w false hw) r buf hr hfit h0
  · intro hno r buf hr hfit h0
    refine fails_of_stream (N := 2 * data.length + 1) (m := ()) (fun fuel => skipValue fuel) (fun fuel hf => ?_) r buf hr hfit h0
    cases ho : (skipValue fuel).stream false data with
    | ok m b q =>
      obtain ⟨w, v, t, e, hw, hv⟩ := skipValue_sound ho
      exact absurd ⟨w, v, t, q, e, hw, hv⟩ hno
    | err m => rfl
    | bad => exact absurd ho ((skipValue_safe fuel false).stream data (by simp))
    | timeout => exact absurd ho (skipValue_ends (n := data.length) (by omega) false data (Nat.le_refl _)).1

/-! ### Witnesses -/

/-- Colons and commas are where one likes or missing, a word with `n` and three more bytes is a null, `\n` is the letter `n`, anything may follow. -/
theorem C90_witness : BodyV2 b!" :[{\"name\" \"a\\nb\",,\"id\":\"1F\" \"x\":nope \"id\" nine \"id\" \"2\"}] and more" [{ name := b!"anb", id := 2 }] ∧
    (¬ ∃ vs, BodyV2 b!"[{\"id\":1}]" vs) ∧ IsBodyV1 b!"[{\"annotations\":[{\"timestamp\" 5}] \"binaryAnnotations\" [{\"value\":1e}]}]" ∧
    ¬ IsBodyV1 b!"[{\"annotations\":{}}]" := by
  have lit : ∀ {l : Str}, (∀ c ∈ l, c ≠ c!"\"" ∧ c ≠ c!"\\" ∧ 0x20 ≤ c) → Unquotes l l := by
    intro l h
    refine ⟨?_, text_unescape h⟩
    induction l with
    | nil => exact .nil
    | cons c l ih => exact .char (h c (by simp)).1 (h c (by simp)).2.1 (ih fun x hx => h x (by simp [hx]))
  refine ⟨⟨_, ⟨b!" :", _, b!" and more", rfl, by decide, .array (.cons (w := []) (by decide)
      (.object (.cons (w := []) (lit := b!"name") (w' := b!" ") (t := b!"\"a\\nb\",,\"id\":\"1F\" \"x\":nope \"id\" nine \"id\" \"2\"}] and more") (by decide) (lit (by decide)) (by decide)
          (.string (lit := b!"a\\nb") (v := b!"anb") ⟨.char (by decide) (by decide) (.escape (by decide) (.char (by decide) (by decide) .nil)), rfl⟩)
        (.cons (w := b!",,") (lit := b!"id") (w' := b!":") (t := b!"\"1F\" \"x\":nope \"id\" nine \"id\" \"2\"}] and more") (by decide) (lit (by decide)) (by decide)
          (.string (lit := b!"1F") (lit (by decide)))
        (.cons (w := b!" ") (lit := b!"x") (w' := b!":") (t := b!"nope \"id\" nine \"id\" \"2\"}] and more") (by decide) (lit (by decide)) (by decide)
          (.word (t := b!"nope") (by decide))
        (.cons (w := b!" ") (lit := b!"id") (w' := b!" ") (t := b!"nine \"id\" \"2\"}] and more") (by decide) (lit (by decide)) (by decide)
          (.word (t := b!"nine") (by decide))
        (.cons (w := b!" ") (lit := b!"id") (w' := b!" ") (t := b!"\"2\"}] and more") (by decide) (lit (by decide)) (by decide)
          (.string (lit := b!"2") (lit (by decide)))
        (.nil (w := []) (by decide))))))))
      (.nil (w := []) (by decide)))⟩, ?_⟩, ?_, ?_, ?_⟩
  · rfl
  · rintro ⟨vs, l, hb, hl⟩
    have : Body b!"[{\"id\":1}]" [.object [(b!"id", .number b!"1")]] :=
      ⟨[], _, [], rfl, by decide, .array (.cons (w := []) (by decide) (.object (.cons (w := []) (lit := b!"id") (w' := b!":") (t := b!"1}]") (by decide) (lit (by decide)) (by decide)
        (.number (t := b!"1") ⟨_, _, rfl, by decide, by decide⟩ ⟨_, _, rfl, by decide⟩) (.nil (w := []) (by decide)))) (.nil (w := []) (by decide)))⟩
    rw [body_unique hb this] at hl
    simp [Loose.toSpanV2, Loose.members, spanV2Member, Loose.toId] at hl
  · refine ⟨_, ⟨[], _, [], rfl, by decide, .array (.cons (w := []) (by decide) (.object
      (.cons (w := []) (lit := b!"annotations") (w' := b!":") (t := b!"[{\"timestamp\" 5}] \"binaryAnnotations\" [{\"value\":1e}]}]") (by decide) (lit (by decide)) (by decide)
        (.array (.cons (w := []) (by decide) (.object (.cons (w := []) (lit := b!"timestamp") (w' := b!" ") (t := b!"5}] \"binaryAnnotations\" [{\"value\":1e}]}]") (by decide) (lit (by decide))
          (by decide) (.number (t := b!"5") ⟨_, _, rfl, by decide, by decide⟩ ⟨_, _, rfl, by decide⟩) (.nil (w := []) (by decide)))) (.nil (w := []) (by decide))))
      (.cons (w := b!" ") (lit := b!"binaryAnnotations") (w' := b!" ") (t := b!"[{\"value\":1e}]}]") (by decide) (lit (by decide)) (by decide)
        (.array (.cons (w := []) (by decide) (.object (.cons (w := []) (lit := b!"value") (w' := b!":") (t := b!"1e}]}]") (by decide) (lit (by decide))
          (by decide) (.number (t := b!"1e") ⟨_, _, rfl, by decide, by decide⟩ ⟨_, _, rfl, by decide⟩) (.nil (w := []) (by decide)))) (.nil (w := []) (by decide))))
      (.nil (w := []) (by decide))))) (.nil (w := []) (by decide)))⟩, ?_⟩
    simp [Loose.toMemV1, Loose.members, spanV1Member, Loose.toList, fillList, annotationMember, Loose.toMicros, MemV1.clear, Loose.toCells, Cells.fill, binaryAnnotationMember, Loose.toScalar]
  · rintro ⟨l, hb, hl⟩
    have : Body b!"[{\"annotations\":{}}]" [.object [(b!"annotations", .object [])]] :=
      ⟨[], _, [], rfl, by decide, .array (.cons (w := []) (by decide) (.object (.cons (w := []) (lit := b!"annotations") (w' := b!":") (t := b!"{}}]") (by decide) (lit (by decide)) (by decide)
        (.object (.nil (w := []) (by decide))) (.nil (w := []) (by decide)))) (.nil (w := []) (by decide)))⟩
    rw [body_unique hb this] at hl
    simp [Loose.toMemV1, Loose.members, spanV1Member, Loose.toList] at hl

end Verif
