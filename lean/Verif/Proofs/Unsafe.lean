import Verif.Spec.Unsafe
import Verif.Spec.Document

/-!
# Decoders with unsafe pointers
-/

namespace Verif

open Spec

/-! ## Memory -/

theorem from_from (m : RawMem) (a b : Nat) : (m.from a).from b = m.from (a + b) := by
  funext c; unfold RawMem.from; rw [Nat.add_assoc]

theorem from_zero (m : RawMem) : m.from 0 = m := by
  funext c; unfold RawMem.from; rw [Nat.zero_add]

theorem Spec.Outside.refl (a n : Nat) (m : RawMem) : Outside a n m m := ⟨fun _ _ => rfl⟩

theorem Spec.Outside.trans {a n : Nat} {m m' m'' : RawMem} (h : Outside a n m m') (h' : Outside a n m' m'') : Outside a n m m'' :=
  ⟨fun b hb => (h'.same b hb).trans (h.same b hb)⟩

theorem Spec.Outside.mono {a n c k : Nat} {m m' : RawMem} (h : Outside c k m m') (h1 : a ≤ c) (h2 : c + k ≤ a + n) : Outside a n m m' :=
  ⟨fun b hb => h.same b (by omega)⟩

theorem Spec.Outside.from {a o n : Nat} {m m' : RawMem} (h : Outside (a + o) n m m') : Outside o n (m.from a) (m'.from a) :=
  ⟨fun b hb => h.same (a + b) (by omega)⟩

theorem write_same (m : RawMem) (a : Nat) (c : Cell) : m.write a c a = c := if_pos rfl

theorem write_other {m : RawMem} {a b : Nat} {c : Cell} (h : b + 8 ≤ a ∨ a + 8 ≤ b) : m.write a c b = m b := by
  unfold RawMem.write
  rw [if_neg (by omega), if_neg (by omega)]

theorem write_outside (m : RawMem) (a : Nat) (c : Cell) : Outside a 8 m (m.write a c) := ⟨fun _ hb => write_other hb⟩

theorem writeString_outside (m : RawMem) (a : Nat) (s : Str) : Outside a 16 m (m.writeString a s) := by
  unfold RawMem.writeString
  exact ((write_outside m a _).mono (n := 16) (Nat.le_refl _) (by omega)).trans ((write_outside _ (a + 8) _).mono (by omega) (by omega))

theorem writeString_rep (m : RawMem) (a : Nat) (s : Str) : kindString.rep s ((m.writeString a s).from a) := by
  refine ⟨?_, ?_⟩
  · show (m.writeString a s) (a + 0) = _
    unfold RawMem.writeString
    rw [write_other (by omega), Nat.add_zero, write_same]
  · show (m.writeString a s) (a + 8) = _
    unfold RawMem.writeString
    rw [write_same]

theorem write_rep (m : RawMem) (a : Nat) (c : Cell) : (m.write a c).from a 0 = c := by
  show m.write a c (a + 0) = c
  rw [Nat.add_zero, write_same]

/-- A value that is not touched stays. -/
theorem rep_outside {τ : Type} {K : Kind τ} {v : τ} {m m' : RawMem} {a c n : Nat} (hr : K.rep v (m.from a)) (h : Outside c n m m') (hd : a + K.size ≤ c ∨ c + n ≤ a) : K.rep v (m'.from a) :=
  K.loc (fun b hb => h.same (a + b) (by omega)) hr

/-! ## Programs -/

namespace RelP

variable {σ τ σ' τ' : Type}

theorem mono {R S : σ → τ → Prop} {p : Prog σ} {q : Prog τ} (h : RelProg R p q) (hs : ∀ m v, R m v → S m v) : RelProg S p q := by
  induction h with
  | done h => exact .done (hs _ _ h)
  | fail h => exact .fail (hs _ _ h)
  | timeout => exact .timeout
  | op h _ ih => exact .op (hs _ _ h) ih

theorem andThen {R : σ → τ → Prop} {S : σ' → τ' → Prop} {p : Prog σ} {q : Prog τ} (h : RelProg R p q) {f : σ → σ'} {g : τ → τ'} (hf : ∀ m v, R m v → S (f m) (g v))
    {k : σ → Prog σ'} {k' : τ → Prog τ'} (hk : ∀ m v, R m v → RelProg S (k m) (k' v)) : RelProg S (p.andThen f k) (q.andThen g k') := by
  induction h with
  | done h => exact hk _ _ h
  | fail h => exact .fail (hf _ _ h)
  | timeout => exact .timeout
  | op h _ ih => exact .op (hf _ _ h) ih

/-- The decoder for a field of a record only says where the value belongs. -/
theorem field {R : σ → τ → Prop} {S : σ → τ' → Prop} {p : Prog σ} {q : Prog τ} (h : RelProg R p q) {g : τ → τ'} (hf : ∀ m v, R m v → S m (g v)) :
    RelProg S p (q.andThen g fun v => .done (g v)) := by
  induction h with
  | done h => exact .done (hf _ _ h)
  | fail h => exact .fail (hf _ _ h)
  | timeout => exact .timeout
  | op h _ ih => exact .op (hf _ _ h) ih

theorem refl (p : Prog σ) : RelProg Eq p p := by
  induction p with
  | done m => exact .done rfl
  | fail m => exact .fail rfl
  | timeout => exact .timeout
  | op o m k ih => exact .op rfl ih

theorem run {R : σ → τ → Prop} {p : Prog σ} {q : Prog τ} (h : RelProg R p q) (fuel : Nat) : ∀ ps : Parser, RelDecoded R (p.run fuel ps) (q.run fuel ps) := by
  induction h with
  | done h => intro ps; exact .ok h
  | fail h => intro ps; exact .err h
  | timeout => intro ps; exact .timeout
  | @op o m v k k' h _ ih =>
    intro ps
    unfold Prog.run
    cases o.run fuel ps with
    | ok a p => exact ih a p
    | err p => exact .err h
    | panic => exact .panic
    | timeout => exact .timeout

theorem nextType {R : σ → τ → Prop} {m : σ} {v : τ} (h : R m v) {k : JType → Prog σ} {k' : JType → Prog τ} (hk : ∀ t, RelProg R (k t) (k' t)) :
    RelProg R (Verif.nextType m k) (Verif.nextType v k') := by
  refine .op h fun _ => .op h fun c => ?_
  split
  · exact .fail h
  · exact hk _

theorem consume {R : σ → τ → Prop} {m : σ} {v : τ} (h : R m v) (t : Punct) {k : Prog σ} {k' : Prog τ} (hk : RelProg R k k') :
    RelProg R (Verif.consume t m k) (Verif.consume t v k') := .op h fun _ => .op h fun _ => hk

theorem readString {R : σ → τ → Prop} {m : σ} {v : τ} (h : R m v) {k : Str → Prog σ} {k' : Str → Prog τ} (hk : ∀ s, RelProg R (k s) (k' s)) :
    RelProg R (Verif.readString m k) (Verif.readString v k') := .op h fun _ => .op h hk

theorem readNumber {R : σ → τ → Prop} {m : σ} {v : τ} (h : R m v) {k : Str → Prog σ} {k' : Str → Prog τ} (hk : ∀ s, RelProg R (k s) (k' s)) :
    RelProg R (Verif.readNumber m k) (Verif.readNumber v k') := .op h fun _ => .op h hk

theorem readLiteral {R : σ → τ → Prop} {m : σ} {v : τ} (h : R m v) {k : Str → Prog σ} {k' : Str → Prog τ} (hk : ∀ s, RelProg R (k s) (k' s)) :
    RelProg R (Verif.readLiteral m k) (Verif.readLiteral v k') := by
  refine nextType h fun t => ?_
  cases t
  case string => exact .op h hk
  case number => exact .op h hk
  case boolean =>
    refine .op h fun c => ?_
    split <;> exact .op h hk
  case null => exact .op h hk
  all_goals exact .fail h

end RelP

/-! ## Decoders of values -/

theorem uint64_refines : Refines kindWord Unsafe.uint64ValueDecoder Verif.uint64ValueDecoder := by
  intro a mem v hr
  refine RelP.readNumber ⟨hr, .refl ..⟩ fun s => ?_
  cases decimal s with
  | none => exact .fail ⟨hr, .refl ..⟩
  | some n => exact .done ⟨write_rep .., write_outside ..⟩

theorem string_refines : Refines kindString Unsafe.stringValueDecoder Verif.stringValueDecoder := by
  intro a mem v hr
  exact RelP.readString ⟨hr, .refl ..⟩ fun s => .done ⟨writeString_rep .., writeString_outside ..⟩

theorem any_refines : Refines kindString Unsafe.anyValueDecoder Verif.anyValueDecoder := by
  intro a mem v hr
  exact RelP.readLiteral ⟨hr, .refl ..⟩ fun s => .done ⟨writeString_rep .., writeString_outside ..⟩

theorem id_refines (fuel : Nat) : Refines kindId (Unsafe.idValueDecoder fuel) (Verif.idValueDecoder fuel) := by
  intro a mem v hr
  refine RelP.nextType ⟨hr, .refl ..⟩ fun t => ?_
  split
  · exact RelP.andThen (RelP.refl _) (fun _ _ _ => ⟨write_rep .., write_outside ..⟩) fun _ _ _ => .done ⟨write_rep .., write_outside ..⟩
  · refine RelP.readString ⟨hr, .refl ..⟩ fun s => ?_
    cases parseId s with
    | none => exact .fail ⟨hr, .refl ..⟩
    | some n => exact .done ⟨write_rep .., write_outside ..⟩

theorem string_of_rep {s : Str} {m : RawMem} (h : kindString.rep s m) : m.string 0 = s := by
  unfold RawMem.string
  obtain ⟨h1, h2⟩ := h
  rw [Nat.zero_add, h1, h2]
  exact List.take_length

theorem localString_rep : kindString.rep [] Unsafe.localString := by
  have := writeString_rep (fun _ => .spoiled) 0 []
  rwa [from_zero] at this

theorem mapLoop_refines {u u' : UnsafeDecoder} {d d' : ValueDecoder Str} (h : Refines kindString u d) (h' : Refines kindString u' d') {a : Nat} {mem : RawMem} {v : Option TagMap}
    (hr : kindMap.rep v (mem.from a)) (fuel : Nat) : ∀ result : Option TagMap,
    RelProg (At kindMap a mem) (Unsafe.mapLoop u u' a mem fuel result) (Verif.mapLoop d d' v fuel result) := by
  have loc : ∀ {w : UnsafeDecoder} {e : ValueDecoder Str}, Refines kindString w e → RelProg (fun (m : RawMem) s => kindString.rep s m) (w 0 Unsafe.localString) (e []) := by
    intro w e hw
    refine RelP.mono (hw 0 Unsafe.localString [] (by rw [from_zero]; exact localString_rep)) fun m s hs => ?_
    have := hs.1
    rwa [from_zero] at this
  induction fuel with
  | zero => intro result; exact .timeout
  | succ fuel ih =>
    intro result
    refine RelP.nextType ⟨hr, .refl ..⟩ fun t => ?_
    split
    · exact RelP.consume ⟨write_rep .., write_outside ..⟩ _ (.done ⟨write_rep .., write_outside ..⟩)
    · refine RelP.andThen (loc h) (fun _ _ _ => ⟨hr, .refl ..⟩) fun m s hs => ?_
      refine RelP.andThen (loc h') (fun _ _ _ => ⟨hr, .refl ..⟩) fun m' s' hs' => ?_
      rw [string_of_rep hs, string_of_rep hs']
      exact ih _

theorem map_refines (fuel : Nat) {u u' : UnsafeDecoder} {d d' : ValueDecoder Str} (h : Refines kindString u d) (h' : Refines kindString u' d') :
    Refines kindMap (Unsafe.makeMapDecoder fuel u u') (Verif.makeMapDecoder fuel d d') := by
  intro a mem v hr
  exact RelP.consume ⟨hr, .refl ..⟩ _ (mapLoop_refines h h' hr fuel none)

/-! ## Structs -/

/-- At this offset of the layout is a field. -/
structure FieldOf {σ τ : Type} (K : Kind σ) (L : Kind τ) (o : Nat) (get : σ → τ) (set : τ → σ → σ) : Prop where
  inside : o + L.size ≤ K.size
  get : ∀ {s m}, K.rep s m → L.rep (get s) (m.from o)
  set : ∀ {s v m m'}, K.rep s m → L.rep v (m'.from o) → Outside o L.size m m' → K.rep (set v s) m'

theorem FieldOf.self {τ : Type} (K : Kind τ) : FieldOf K K 0 id (fun v _ => v) where
  inside := by omega
  get h := by rw [from_zero]; exact h
  set _ h _ := by rwa [from_zero] at h

theorem FieldOf.left {σ τ ρ : Type} {K : Kind σ} {M : Kind ρ} {o : Nat} {get : σ → ρ} {set : ρ → σ → σ} (h : FieldOf K M o get set) (L : Kind τ) :
    FieldOf (K.and L) M o (fun s => get s.1) (fun v s => (set v s.1, s.2)) where
  inside := Nat.le_trans h.inside (Nat.le_add_right ..)
  get hr := h.get hr.1
  set {s v m m'} hr hv ho := by
    have := h.inside
    refine ⟨h.set hr.1 hv ho, L.loc (fun b hb => ho.same _ (by omega)) hr.2⟩

theorem FieldOf.right {σ τ ρ : Type} {L : Kind τ} {M : Kind ρ} {o : Nat} {get : τ → ρ} {set : ρ → τ → τ} (K : Kind σ) (h : FieldOf L M o get set) :
    FieldOf (K.and L) M (K.size + o) (fun s => get s.2) (fun v s => (s.1, set v s.2)) where
  inside := by
    have := h.inside
    show K.size + o + M.size ≤ K.size + L.size
    omega
  get hr := by rw [← from_from]; exact h.get hr.2
  set {s v m m'} hr hv ho := by
    have := h.inside
    refine ⟨K.loc (fun b hb => ho.same _ (by omega)) hr.1, h.set hr.2 (by rw [from_from]; exact hv) ?_⟩
    exact ho.from

theorem FieldOf.of {σ τ ρ : Type} {K : Kind τ} {M : Kind ρ} {o : Nat} {get : τ → ρ} {set : ρ → τ → τ} (h : FieldOf K M o get set) {f : σ → τ} {get' : σ → ρ} {set' : ρ → σ → σ}
    (hg : ∀ s, get (f s) = get' s) (hs : ∀ v s, f (set' v s) = set v (f s)) : FieldOf (K.of f) M o get' set' where
  inside := h.inside
  get {s m} hr := by rw [← hg]; exact h.get hr
  set {s v m m'} hr hv ho := by
    show K.rep (f (set' v s)) m'
    rw [hs]; exact h.set hr hv ho

theorem field_refines {σ τ : Type} {K : Kind σ} {L : Kind τ} {o : Nat} {get : σ → τ} {set : τ → σ → σ} (hf : FieldOf K L o get set) {u : UnsafeDecoder} {d : ValueDecoder τ} (h : Refines L u d) :
    Refines K (fun a => u (a + o)) (d.field get set) := by
  intro a mem s hr
  have hi := hf.inside
  refine RelP.field (h (a + o) mem (get s) (by rw [← from_from]; exact hf.get hr)) fun mem' v' hv => ?_
  refine ⟨hf.set hr (by rw [from_from]; exact hv.1) hv.2.from, hv.2.mono (by omega) (by omega)⟩

/-- A field of the code and the one of the model. -/
def FieldRefines {σ : Type} (K : Kind σ) (f : Str × Nat × UnsafeDecoder) (g : Str × ValueDecoder σ) : Prop := f.1 = g.1 ∧ Refines K (fun a => f.2.2 (a + f.2.1)) g.2

theorem lookup_fields {σ : Type} {K : Kind σ} {l : List (Str × Nat × UnsafeDecoder)} {l' : List (Str × ValueDecoder σ)} (h : Pairwise₂ (FieldRefines K) l l') (key : Str) :
    (l.lookup key = none ∧ l'.lookup key = none) ∨ ∃ o u d, l.lookup key = some (o, u) ∧ l'.lookup key = some d ∧ Refines K (fun a => u (a + o)) d := by
  induction h with
  | nil => exact .inl ⟨rfl, rfl⟩
  | @cons f g l l' hfg _ ih =>
    obtain ⟨k, o, u⟩ := f
    obtain ⟨k', d⟩ := g
    obtain ⟨he, hr⟩ := hfg
    dsimp only at he hr
    subst he
    rw [List.lookup_cons, List.lookup_cons]
    cases key == k with
    | true => exact .inr ⟨o, u, d, rfl, rfl, hr⟩
    | false => exact ih

theorem struct_refines {σ : Type} {K : Kind σ} {l : List (Str × Nat × UnsafeDecoder)} {l' : List (Str × ValueDecoder σ)} (h : Pairwise₂ (FieldRefines K) l l') (fuel : Nat) :
    Refines K (Unsafe.makeStructDecoder fuel l) (Verif.makeStructDecoder fuel l') := by
  intro a mem s hr
  refine RelP.consume ⟨hr, .refl ..⟩ _ ?_
  have loop : ∀ (n : Nat) (mem' : RawMem) (s' : σ), At K a mem mem' s' →
      RelProg (At K a mem) (Unsafe.structLoop fuel l a n mem') (Verif.structLoop fuel l' n s') := by
    intro n
    induction n with
    | zero => intro _ _ _; exact .timeout
    | succ n ih =>
      intro mem' s' hi
      refine RelP.nextType hi fun t => ?_
      split
      · exact RelP.consume hi _ (.done hi)
      · refine RelP.readString hi fun key => ?_
        rcases lookup_fields h key with ⟨e1, e2⟩ | ⟨o, u, d, e1, e2, hd⟩
        · rw [e1, e2]
          exact RelP.andThen (RelP.refl _) (fun _ _ _ => hi) fun _ _ _ => ih _ _ hi
        · rw [e1, e2]
          have step : ∀ (m : RawMem) (v : σ), At K a mem' m v → At K a mem m v := fun m v hv => ⟨hv.1, hi.2.trans hv.2⟩
          exact RelP.andThen (hd a mem' s' hi.1) step fun m v hv => ih _ _ (step m v hv)
  exact loop fuel mem s ⟨hr, .refl ..⟩

/-! ## Arrays and slices -/

theorem array_refines {α : Type} {K : Kind α} {u : UnsafeDecoder} {d : ValueDecoder α} (h : Refines K u d) (zero : α) (fuel n : Nat) :
    Refines (kindArray K n) (Unsafe.makeArrayDecoder fuel n K.size u) (Verif.makeArrayDecoder fuel zero d) := by
  intro a mem s hr
  refine RelP.consume ⟨hr, .refl ..⟩ _ ?_
  have loop : ∀ (k idx : Nat) (mem' : RawMem) (s' : List α), At (kindArray K n) a mem mem' s' →
      RelProg (At (kindArray K n) a mem) (Unsafe.arrayLoop fuel n K.size u a k idx mem') (Verif.arrayLoop fuel zero d k idx s') := by
    intro k
    induction k with
    | zero => intro _ _ _ _; exact .timeout
    | succ k ih =>
      intro idx mem' s' hi
      refine RelP.nextType hi fun t => ?_
      split
      · exact RelP.consume hi _ (.done hi)
      · have hl : s'.length = n := hi.1.1
        rw [hl]
        split
        · next hlt =>
          have hget : s'[idx]? = some (s'.getD idx zero) := by
            rw [List.getD_eq_getElem?_getD, List.getElem?_eq_getElem (by omega)]; rfl
          have hel : K.rep (s'.getD idx zero) (mem'.from (a + idx * K.size)) := by
            rw [← from_from]; exact hi.1.2 idx _ hget
          have hm := Nat.mul_le_mul_right K.size (Nat.succ_le_of_lt hlt)
          rw [Nat.succ_mul] at hm
          have step : ∀ (m : RawMem) (v : α), At K (a + idx * K.size) mem' m v →
              At (kindArray K n) a mem m (s'.set idx v) := by
            intro m v hv
            refine ⟨⟨by rw [List.length_set]; exact hl, fun i w hw => ?_⟩, hi.2.trans (hv.2.mono (by omega) (by show _ ≤ a + n * K.size; omega))⟩
            rw [List.getElem?_set] at hw
            split at hw
            · next he =>
              subst he
              rw [if_pos (by omega)] at hw
              cases hw
              rw [from_from]; exact hv.1
            · next hne =>
              have := hi.1.2 i w hw
              rw [from_from] at this ⊢
              refine rep_outside this hv.2 ?_
              rcases Nat.lt_or_gt_of_ne hne with h' | h'
              · have := Nat.mul_le_mul_right K.size (Nat.succ_le_of_lt h')
                rw [Nat.succ_mul] at this
                omega
              · have := Nat.mul_le_mul_right K.size (Nat.succ_le_of_lt h')
                rw [Nat.succ_mul] at this
                omega
          exact RelP.andThen (h _ mem' _ hel) step fun m v hv => ih _ _ _ (step m v hv)
        · exact RelP.andThen (RelP.refl _) (fun _ _ _ => hi) fun _ _ _ => ih _ _ _ hi
  exact loop fuel 0 mem s ⟨hr, .refl ..⟩

theorem grow_rep {α : Type} {K : Kind α} (hpos : 8 ≤ K.size) {zero : α} {zeroMem : RawMem} (hz : K.rep zero zeroMem) (newCap : Nat → Nat → Nat) {a n : Nat} {mem : RawMem} {s : GoSlice α}
    (hr : (kindSlice K).rep s (mem.from a)) :
    (kindSlice K).rep (s.grow newCap zero n) ((Unsafe.grow newCap K.size zeroMem a n mem).from a) ∧ Outside a 24 mem (Unsafe.grow newCap K.size zeroMem a n mem) := by
  obtain ⟨array, h0, h8, h16, hle, hel⟩ := hr
  have h0' : mem a = .array array := h0
  have h8' : mem (a + 8) = .length s.len := h8
  have h16' : mem (a + 16) = .length s.cells.length := h16
  unfold Unsafe.grow GoSlice.grow
  rw [h0', h8', h16']
  dsimp only
  split
  · next hc =>
    refine ⟨⟨array, ?_, ?_, ?_, hc, hel⟩, (write_outside mem (a + 8) _).mono (by omega) (by omega)⟩
    · show (mem.write (a + 8) _) (a + 0) = _
      rw [write_other (by omega)]; exact h0
    · show (mem.write (a + 8) _) (a + 8) = _
      rw [write_same]
    · show (mem.write (a + 8) _) (a + 16) = _
      rw [write_other (by omega)]; exact h16'
  · next hc =>
    have hlen : s.elems.length = s.len := by unfold GoSlice.elems; rw [List.length_take]; omega
    refine ⟨⟨fun b => if b < s.len * K.size then array b else zeroMem (b % K.size), ?_, ?_, ?_, ?_, ?_⟩, ?_⟩
    · show RawMem.write _ _ _ (a + 0) = _
      rw [write_other (by omega), write_other (by omega), Nat.add_zero, write_same]
    · show RawMem.write _ _ _ (a + 8) = _
      rw [write_other (by omega), write_same]
    · show RawMem.write _ _ _ (a + 16) = _
      rw [write_same, List.length_append, List.length_replicate, hlen]
      congr 1
      omega
    · rw [List.length_append, List.length_replicate, hlen]
      dsimp only
      omega
    · intro i v hv
      dsimp only at hv
      rw [List.getElem?_append] at hv
      split at hv
      · next hi =>
        rw [hlen] at hi
        have hv' : s.cells[i]? = some v := by
          unfold GoSlice.elems at hv
          rw [List.getElem?_take, if_pos hi] at hv
          exact hv
        refine K.loc (fun b hb => ?_) (hel i v hv')
        have := Nat.mul_le_mul_right K.size (Nat.succ_le_of_lt hi)
        rw [Nat.succ_mul] at this
        exact if_pos (by omega)
      · next hi =>
        rw [hlen] at hi
        rw [List.getElem?_replicate] at hv
        split at hv
        · cases hv
          refine K.loc (fun b hb => ?_) hz
          have := Nat.mul_le_mul_right K.size (Nat.le_of_not_lt hi)
          show (if i * K.size + b < s.len * K.size then _ else _) = _
          rw [if_neg (by omega), Nat.mul_comm, Nat.mul_add_mod, Nat.mod_eq_of_lt (by omega)]
        · cases hv
    · exact (((write_outside _ a _).mono (n := 24) (by omega) (by omega)).trans ((write_outside _ (a + 8) _).mono (by omega) (by omega))).trans
        ((write_outside _ (a + 16) _).mono (by omega) (by omega))

theorem slice_refines {α : Type} {K : Kind α} (hpos : 8 ≤ K.size) {zero : α} {zeroMem : RawMem} (hz : K.rep zero zeroMem) (newCap : Nat → Nat → Nat) {u : UnsafeDecoder} {d : ValueDecoder α}
    (h : Refines K u d) (fuel : Nat) : Refines (kindSlice K) (Unsafe.makeSliceDecoder newCap fuel K.size zeroMem u) (Verif.makeSliceDecoder newCap fuel zero d) := by
  intro a mem s hr
  refine RelP.consume ⟨hr, .refl ..⟩ _ ?_
  have loop : ∀ (k idx : Nat) (mem' : RawMem) (s' : GoSlice α), At (kindSlice K) a mem mem' s' →
      RelProg (At (kindSlice K) a mem) (Unsafe.sliceLoop newCap K.size zeroMem u a k idx mem')
        (Verif.sliceLoop newCap zero d k idx s') := by
    intro k
    induction k with
    | zero => intro _ _ _ _; exact .timeout
    | succ k ih =>
      intro idx mem' s' hi
      refine RelP.nextType hi fun t => ?_
      split
      · exact RelP.consume hi _ (.done hi)
      · obtain ⟨hg, ho⟩ := grow_rep hpos hz newCap hi.1 (n := idx + 1)
        dsimp only
        generalize Unsafe.grow newCap K.size zeroMem a (idx + 1) mem' = gm at hg ho
        have hglen : (s'.grow newCap zero (idx + 1)).len = idx + 1 := by unfold GoSlice.grow; split <;> rfl
        generalize s'.grow newCap zero (idx + 1) = gs at hg hglen
        obtain ⟨array, h0, h8, h16, hle, hel⟩ := hg
        have h0' : gm a = .array array := h0
        rw [h0']
        dsimp only
        have hget : gs.cells[idx]? = some (gs.cells.getD idx zero) := by
          rw [List.getD_eq_getElem?_getD, List.getElem?_eq_getElem (by omega)]; rfl
        have step : ∀ (m : RawMem) (v : α), At K (idx * K.size) array m v →
            At (kindSlice K) a mem (gm.behind a m) (gs.set idx v) := by
          intro m v hv
          refine ⟨⟨m, ?_, ?_, ?_, ?_, fun i w hw => ?_⟩, hi.2.trans (ho.trans ⟨fun b hb => ?_⟩)⟩
          · show (if a + 0 = a then _ else _) = _
            rw [if_pos (by omega)]
          · show (if a + 8 = a then _ else _) = _
            rw [if_neg (by omega)]; exact h8
          · show (if a + 16 = a then _ else _) = _
            rw [if_neg (by omega), GoSlice.set, List.length_set]; exact h16
          · rw [GoSlice.set, List.length_set]; exact hle
          · rw [GoSlice.set, List.getElem?_set] at hw
            split at hw
            · next he =>
              subst he
              rw [if_pos (by omega)] at hw
              cases hw
              exact hv.1
            · next hne =>
              refine rep_outside (hel i w hw) hv.2 ?_
              rcases Nat.lt_or_gt_of_ne hne with h' | h'
              · have := Nat.mul_le_mul_right K.size (Nat.succ_le_of_lt h')
                rw [Nat.succ_mul] at this
                omega
              · have := Nat.mul_le_mul_right K.size (Nat.succ_le_of_lt h')
                rw [Nat.succ_mul] at this
                omega
          · show (if b = a then _ else _) = _
            rw [if_neg (by have : (kindSlice K).size = 24 := rfl; omega)]
        exact RelP.andThen (h (idx * K.size) array _ (hel idx _ hget)) step fun m v hv => ih _ _ _ (step m v hv)
  exact loop fuel 0 mem s ⟨hr, .refl ..⟩

/-! ## Spans -/

theorem endpoint_refines (fuel : Nat) : Refines kindEndpoint (Unsafe.endpointValueDecoder fuel) (Verif.endpointValueDecoder fuel) := by
  refine struct_refines (.cons ⟨rfl, ?_⟩ .nil) fuel
  exact field_refines ((FieldOf.self kindString).of (fun _ => rfl) (fun _ _ => rfl)) string_refines

/-- Clears fields one after the other. -/
theorem clearAnnotationV1_rep (a : Nat) (m : RawMem) : At kindAnnotationV1 a m (Unsafe.clearAnnotationV1 a m) {} := by
  unfold Unsafe.clearAnnotationV1
  refine ⟨⟨?_, ?_, ?_⟩, ?_⟩
  · refine rep_outside (K := kindWord) (rep_outside (K := kindWord) (write_rep m a _) (writeString_outside _ (a + 8) []) ?_) (writeString_outside _ (a + 24) []) ?_ <;> (left; show a + 8 ≤ _; omega)
  · rw [from_from]
    exact rep_outside (writeString_rep _ (a + 8) _) (writeString_outside _ (a + 24) []) (.inl (by show a + 8 + 16 ≤ _; omega))
  · rw [from_from, from_from]
    exact writeString_rep _ (a + 24) _
  · exact (((write_outside m a _).mono (n := 40) (by omega) (by omega)).trans ((writeString_outside _ (a + 8) _).mono (by omega) (by omega))).trans
      ((writeString_outside _ (a + 24) _).mono (by omega) (by omega))

theorem clearBinaryAnnotationV1_rep (a : Nat) (m : RawMem) : At kindBinaryAnnotationV1 a m (Unsafe.clearBinaryAnnotationV1 a m) {} := by
  unfold Unsafe.clearBinaryAnnotationV1
  refine ⟨⟨?_, ?_, ?_⟩, ?_⟩
  · refine rep_outside (K := kindString) (rep_outside (writeString_rep m a _) (writeString_outside _ (a + 16) []) ?_) (writeString_outside _ (a + 32) []) ?_ <;> (left; show a + 16 ≤ _; omega)
  · rw [from_from]
    exact rep_outside (writeString_rep _ (a + 16) _) (writeString_outside _ (a + 32) []) (.inl (by show a + 16 + 16 ≤ _; omega))
  · rw [from_from, from_from]
    exact writeString_rep _ (a + 32) _
  · exact (((writeString_outside m a _).mono (n := 48) (by omega) (by omega)).trans ((writeString_outside _ (a + 16) _).mono (by omega) (by omega))).trans
      ((writeString_outside _ (a + 32) _).mono (by omega) (by omega))

theorem annotationV1_refines (fuel : Nat) : Refines kindAnnotationV1 (Unsafe.makeStructDecoder fuel (Unsafe.annotationV1Fields fuel)) (Verif.makeStructDecoder fuel (Verif.annotationV1Fields fuel)) := by
  refine struct_refines (.cons ⟨rfl, ?_⟩ (.cons ⟨rfl, ?_⟩ (.cons ⟨rfl, ?_⟩ .nil))) fuel
  · exact field_refines (((FieldOf.self kindWord).left _).of (fun _ => rfl) (fun _ _ => rfl)) uint64_refines
  · exact field_refines ((FieldOf.right _ ((FieldOf.self kindString).left _)).of (fun _ => rfl) (fun _ _ => rfl)) string_refines
  · exact field_refines ((FieldOf.right _ (FieldOf.right _ (FieldOf.self kindEndpoint))).of (fun _ => rfl) (fun _ _ => rfl)) (endpoint_refines fuel)

theorem binaryAnnotationV1_refines (fuel : Nat) :
    Refines kindBinaryAnnotationV1 (Unsafe.makeStructDecoder fuel (Unsafe.binaryAnnotationV1Fields fuel)) (Verif.makeStructDecoder fuel (Verif.binaryAnnotationV1Fields fuel)) := by
  refine struct_refines (.cons ⟨rfl, ?_⟩ (.cons ⟨rfl, ?_⟩ (.cons ⟨rfl, ?_⟩ .nil))) fuel
  · exact field_refines (((FieldOf.self kindString).left _).of (fun _ => rfl) (fun _ _ => rfl)) string_refines
  · exact field_refines ((FieldOf.right _ ((FieldOf.self kindString).left _)).of (fun _ => rfl) (fun _ _ => rfl)) any_refines
  · exact field_refines ((FieldOf.right _ (FieldOf.right _ (FieldOf.self kindEndpoint))).of (fun _ => rfl) (fun _ _ => rfl)) (endpoint_refines fuel)

theorem spanV2Fields_refine (fuel : Nat) : Pairwise₂ (FieldRefines kindSpanV2) (Unsafe.spanV2Fields fuel) (Verif.spanV2Fields fuel) := by
  refine .cons ⟨rfl, ?_⟩ (.cons ⟨rfl, ?_⟩ (.cons ⟨rfl, ?_⟩ (.cons ⟨rfl, ?_⟩ (.cons ⟨rfl, ?_⟩ (.cons ⟨rfl, ?_⟩ (.cons ⟨rfl, ?_⟩ (.cons ⟨rfl, ?_⟩ (.cons ⟨rfl, ?_⟩ .nil))))))))
  · exact field_refines ((FieldOf.right _ ((FieldOf.self kindId).left _)).of (fun _ => rfl) (fun _ _ => rfl)) (id_refines fuel)
  · exact field_refines (((FieldOf.self kindId).left _).of (fun _ => rfl) (fun _ _ => rfl)) (id_refines fuel)
  · exact field_refines ((FieldOf.right _ (FieldOf.right _ ((FieldOf.self kindId).left _))).of (fun _ => rfl) (fun _ _ => rfl)) (id_refines fuel)
  · exact field_refines ((FieldOf.right _ (FieldOf.right _ (FieldOf.right _ (FieldOf.right _ (FieldOf.right _ (FieldOf.right _ (FieldOf.right _ ((FieldOf.self kindWord).left _)))))))).of (fun _ => rfl) (fun _ _ => rfl)) uint64_refines
  · exact field_refines ((FieldOf.right _ (FieldOf.right _ (FieldOf.right _ (FieldOf.right _ (FieldOf.right _ (FieldOf.right _ (FieldOf.right _ (FieldOf.right _ (FieldOf.self kindWord))))))))).of (fun _ => rfl) (fun _ _ => rfl)) uint64_refines
  · exact field_refines ((FieldOf.right _ (FieldOf.right _ (FieldOf.right _ ((FieldOf.self kindString).left _)))).of (fun _ => rfl) (fun _ _ => rfl)) string_refines
  · exact field_refines ((FieldOf.right _ (FieldOf.right _ (FieldOf.right _ (FieldOf.right _ (FieldOf.right _ ((FieldOf.self kindMap).left _)))))).of (fun _ => rfl) (fun _ _ => rfl))
      (map_refines fuel string_refines string_refines)
  · exact field_refines ((FieldOf.right _ (FieldOf.right _ (FieldOf.right _ (FieldOf.right _ (FieldOf.right _ (FieldOf.right _ ((FieldOf.self kindString).left _))))))).of (fun _ => rfl) (fun _ _ => rfl)) string_refines
  · exact field_refines ((FieldOf.right _ (FieldOf.right _ (FieldOf.right _ (FieldOf.right _ ((FieldOf.self kindEndpoint).left _))))).of (fun _ => rfl) (fun _ _ => rfl)) (endpoint_refines fuel)

theorem spanV1Fields_refine (newCap : Nat → Nat → Nat) (fuel : Nat) : Pairwise₂ (FieldRefines kindSpanV1) (Unsafe.spanV1Fields newCap fuel) (Verif.spanV1Fields newCap fuel) := by
  refine .cons ⟨rfl, ?_⟩ (.cons ⟨rfl, ?_⟩ (.cons ⟨rfl, ?_⟩ (.cons ⟨rfl, ?_⟩ (.cons ⟨rfl, ?_⟩ (.cons ⟨rfl, ?_⟩ (.cons ⟨rfl, ?_⟩ (.cons ⟨rfl, ?_⟩ .nil)))))))
  · exact field_refines ((FieldOf.right _ ((FieldOf.self kindId).left _)).of (fun _ => rfl) (fun _ _ => rfl)) (id_refines fuel)
  · exact field_refines (((FieldOf.self kindId).left _).of (fun _ => rfl) (fun _ _ => rfl)) (id_refines fuel)
  · exact field_refines ((FieldOf.right _ (FieldOf.right _ ((FieldOf.self kindId).left _))).of (fun _ => rfl) (fun _ _ => rfl)) (id_refines fuel)
  · exact field_refines ((FieldOf.right _ (FieldOf.right _ (FieldOf.right _ (FieldOf.right _ (FieldOf.right _ (FieldOf.right _ ((FieldOf.self kindWord).left _))))))).of (fun _ => rfl) (fun _ _ => rfl)) uint64_refines
  · exact field_refines ((FieldOf.right _ (FieldOf.right _ (FieldOf.right _ (FieldOf.right _ (FieldOf.right _ (FieldOf.right _ (FieldOf.right _ (FieldOf.self kindWord)))))))).of (fun _ => rfl) (fun _ _ => rfl)) uint64_refines
  · exact field_refines ((FieldOf.right _ (FieldOf.right _ (FieldOf.right _ (FieldOf.right _ (FieldOf.right _ ((FieldOf.self kindString).left _)))))).of (fun _ => rfl) (fun _ _ => rfl)) string_refines
  · refine field_refines ((FieldOf.right _ (FieldOf.right _ (FieldOf.right _ (FieldOf.right _ ((FieldOf.self (kindSlice kindBinaryAnnotationV1)).left _))))).of (fun _ => rfl) (fun _ _ => rfl)) ?_
    have hz := (clearBinaryAnnotationV1_rep 0 fun _ => .spoiled).rep
    rw [from_zero] at hz
    exact slice_refines (K := kindBinaryAnnotationV1) (by decide) hz newCap (binaryAnnotationV1_refines fuel) fuel
  · refine field_refines ((FieldOf.right _ (FieldOf.right _ (FieldOf.right _ ((FieldOf.self (kindArray kindAnnotationV1 4)).left _)))).of (fun _ => rfl) (fun _ _ => rfl)) ?_
    exact array_refines (K := kindAnnotationV1) (annotationV1_refines fuel) {} fuel 4

theorem clearSpanV2_rep (a : Nat) (m : RawMem) : At kindSpanV2 a m (Unsafe.clearSpanV2 a m) {} := by
  have h0 : Unsafe.clearSpanV2 a m a = .word 0 := by simp (disch := omega) only [Unsafe.clearSpanV2, RawMem.writeString, write_other, write_same]
  have h8 : Unsafe.clearSpanV2 a m (a + 8) = .word 0 := by simp (disch := omega) only [Unsafe.clearSpanV2, RawMem.writeString, write_other, write_same]
  have h16 : Unsafe.clearSpanV2 a m (a + 16) = .word 0 := by simp (disch := omega) only [Unsafe.clearSpanV2, RawMem.writeString, write_other, write_same]
  have h24 : Unsafe.clearSpanV2 a m (a + 24) = .text [] := by simp (disch := omega) only [Unsafe.clearSpanV2, RawMem.writeString, write_other, write_same]
  have h32 : Unsafe.clearSpanV2 a m (a + 32) = .length 0 := by simp (disch := omega) only [Unsafe.clearSpanV2, RawMem.writeString, write_other]; rw [write_same]; rfl
  have h40 : Unsafe.clearSpanV2 a m (a + 40) = .text [] := by simp (disch := omega) only [Unsafe.clearSpanV2, RawMem.writeString, write_other, write_same]
  have h48 : Unsafe.clearSpanV2 a m (a + 48) = .length 0 := by simp (disch := omega) only [Unsafe.clearSpanV2, RawMem.writeString, write_other]; rw [write_same]; rfl
  have h56 : Unsafe.clearSpanV2 a m (a + 56) = .map none := by simp (disch := omega) only [Unsafe.clearSpanV2, RawMem.writeString, write_other, write_same]
  have h64 : Unsafe.clearSpanV2 a m (a + 64) = .text [] := by simp (disch := omega) only [Unsafe.clearSpanV2, RawMem.writeString, write_other, write_same]
  have h72 : Unsafe.clearSpanV2 a m (a + 72) = .length 0 := by simp (disch := omega) only [Unsafe.clearSpanV2, RawMem.writeString, write_other]; rw [write_same]; rfl
  have h80 : Unsafe.clearSpanV2 a m (a + 80) = .word 0 := by simp (disch := omega) only [Unsafe.clearSpanV2, RawMem.writeString, write_other, write_same]
  have h88 : Unsafe.clearSpanV2 a m (a + 88) = .word 0 := by simp (disch := omega) only [Unsafe.clearSpanV2, RawMem.writeString, write_other, write_same]
  refine ⟨⟨h0, h8, h16, ⟨h24, h32⟩, ⟨h40, h48⟩, h56, ⟨h64, h72⟩, h80, h88⟩, ⟨fun b hb => ?_⟩⟩
  have hsz : kindSpanV2.size = 96 := rfl
  simp (disch := omega) only [Unsafe.clearSpanV2, RawMem.writeString, write_other]

theorem spanV2_refines (fuel : Nat) : Refines kindSpanV2 (Unsafe.spanV2ValueDecoder fuel) (Verif.spanV2ValueDecoder fuel) := by
  intro a mem v _
  have hc := clearSpanV2_rep a mem
  exact RelP.mono (struct_refines (spanV2Fields_refine fuel) fuel a _ _ hc.rep) fun m v h => ⟨h.rep, hc.outside.trans h.outside⟩

theorem sliceV2_refines (newCap : Nat → Nat → Nat) (fuel : Nat) : Refines (kindSlice kindSpanV2) (Unsafe.decoderSliceSpanV2 newCap fuel) (Verif.decoderSliceSpanV2 newCap fuel) := by
  have hz := (clearSpanV2_rep 0 fun _ => .spoiled).rep
  rw [from_zero] at hz
  exact slice_refines (K := kindSpanV2) (by decide) hz newCap (spanV2_refines fuel) fuel

theorem clearBinaryAnnotations_rep {array : RawMem} {cells : List BinaryAnnotationV1}
    (hel : ∀ (i : Nat) (v : BinaryAnnotationV1), cells[i]? = some v → kindBinaryAnnotationV1.rep v (array.from (i * 48))) (n : Nat) (hn : n ≤ cells.length) :
    ∀ (i : Nat) (v : BinaryAnnotationV1), (List.replicate n ({} : BinaryAnnotationV1) ++ cells.drop n)[i]? = some v → kindBinaryAnnotationV1.rep v ((Unsafe.clearBinaryAnnotations n array).from (i * 48)) := by
  induction n with
  | zero => exact hel
  | succ n ih =>
    have ih := ih (by omega)
    have e : Unsafe.clearBinaryAnnotations (n + 1) array = Unsafe.clearBinaryAnnotationV1 (n * 48) (Unsafe.clearBinaryAnnotations n array) := by
      unfold Unsafe.clearBinaryAnnotations
      rw [List.range_succ, List.foldl_append]; rfl
    rw [e]
    have hc := clearBinaryAnnotationV1_rep (n * 48) (Unsafe.clearBinaryAnnotations n array)
    intro i v hv
    by_cases hi : i = n
    · subst hi
      rw [List.getElem?_append_left (by rw [List.length_replicate]; omega), List.getElem?_replicate, if_pos (by omega)] at hv
      cases hv
      exact hc.rep
    · have hv' : (List.replicate n ({} : BinaryAnnotationV1) ++ cells.drop n)[i]? = some v := by
        rw [List.getElem?_append] at hv ⊢
        rw [List.length_replicate] at hv ⊢
        rcases Nat.lt_or_gt_of_ne hi with h | h
        · rw [if_pos (by omega), List.getElem?_replicate, if_pos (by omega)] at hv
          rw [if_pos h, List.getElem?_replicate, if_pos h]
          exact hv
        · rw [if_neg (by omega), List.getElem?_drop] at hv
          rw [if_neg (by omega), List.getElem?_drop]
          have : n + (i - n) = n + 1 + (i - (n + 1)) := by omega
          rw [this]; exact hv
      refine rep_outside (ih i v hv') hc.outside ?_
      show i * 48 + 48 ≤ n * 48 ∨ n * 48 + 48 ≤ i * 48
      omega

theorem resetSpanV1_rep {a : Nat} {m : RawMem} {s : SpanV1} (hr : kindSpanV1.rep s (m.from a)) : At kindSpanV1 a m (Unsafe.resetSpanV1 a m) s.reset := by
  obtain ⟨_, _, _, _, ⟨array, g0, g8, g16, gle, gel⟩, _⟩ := hr
  have gle : s.binaryAnnotations.len ≤ s.binaryAnnotations.cells.length := gle
  have g0' : m (a + 184) = .array array := g0
  have g8' : m (a + 192) = .length s.binaryAnnotations.len := g8
  have g16' : m (a + 200) = .length s.binaryAnnotations.cells.length := g16
  have hlen : s.binaryAnnotations.elems.length = s.binaryAnnotations.len := by unfold GoSlice.elems; rw [List.length_take]; omega
  unfold Unsafe.resetSpanV1
  dsimp only
  generalize hm1 : (((m.write a (Cell.word 0)).write (a + 8) (.word 0)).write (a + 16) (.word 0)) = m1
  generalize hm2 : (((m1.write (a + 232) (.word 0)).write (a + 224) (.word 0)).writeString (a + 208) []) = m2
  have c0 := clearAnnotationV1_rep (a + 24) m2
  generalize Unsafe.clearAnnotationV1 (a + 24) m2 = m3 at c0
  have c1 := clearAnnotationV1_rep (a + 64) m3
  generalize Unsafe.clearAnnotationV1 (a + 64) m3 = m4 at c1
  have c2 := clearAnnotationV1_rep (a + 104) m4
  generalize Unsafe.clearAnnotationV1 (a + 104) m4 = m5 at c2
  have c3 := clearAnnotationV1_rep (a + 144) m5
  generalize Unsafe.clearAnnotationV1 (a + 144) m5 = m6 at c3
  have hsz : kindAnnotationV1.size = 40 := rfl
  have k : ∀ b, (b + 8 ≤ a + 24 ∨ a + 184 ≤ b) → m6 b = m2 b := fun b hb => by
    rw [c3.outside.same b (by omega), c2.outside.same b (by omega), c1.outside.same b (by omega), c0.outside.same b (by omega)]
  have k2 : ∀ b, b + 8 ≤ a ∨ (a + 24 ≤ b ∧ b + 8 ≤ a + 208) ∨ a + 240 ≤ b → m2 b = m b := fun b hb => by
    rw [← hm2, ← hm1]
    simp (disch := omega) only [RawMem.writeString, write_other]
  have e184 : m6 (a + 184) = .array array := by rw [k _ (by omega), k2 _ (by omega), g0']
  have e192 : m6 (a + 192) = .length s.binaryAnnotations.len := by rw [k _ (by omega), k2 _ (by omega), g8']
  have e200 : m6 (a + 200) = .length s.binaryAnnotations.cells.length := by rw [k _ (by omega), k2 _ (by omega), g16']
  rw [e184, e192]
  dsimp only
  have fin : ∀ b, b + 8 ≤ a + 184 ∨ a + 200 ≤ b →
      ((m6.behind (a + 184) (Unsafe.clearBinaryAnnotations s.binaryAnnotations.len array)).write (a + 192) (.length 0)) b = m6 b := by
    intro b hb
    rw [write_other (by omega)]
    exact if_neg (by omega)
  have f184 : ((m6.behind (a + 184) (Unsafe.clearBinaryAnnotations s.binaryAnnotations.len array)).write (a + 192) (.length 0)) (a + 184) =
      .array (Unsafe.clearBinaryAnnotations s.binaryAnnotations.len array) := by
    rw [write_other (by omega)]
    exact if_pos rfl
  have f192 : ((m6.behind (a + 184) (Unsafe.clearBinaryAnnotations s.binaryAnnotations.len array)).write (a + 192) (.length 0)) (a + 192) = .length 0 := write_same ..
  generalize (m6.behind (a + 184) (Unsafe.clearBinaryAnnotations s.binaryAnnotations.len array)).write (a + 192) (.length 0) = m7 at fin f184 f192
  have h0 : m7 a = .word 0 := by
    rw [fin _ (by omega), k _ (by omega), ← hm2, ← hm1]
    simp (disch := omega) only [RawMem.writeString, write_other, write_same]
  have h8 : m7 (a + 8) = .word 0 := by
    rw [fin _ (by omega), k _ (by omega), ← hm2, ← hm1]
    simp (disch := omega) only [RawMem.writeString, write_other, write_same]
  have h16 : m7 (a + 16) = .word 0 := by
    rw [fin _ (by omega), k _ (by omega), ← hm2, ← hm1]
    simp (disch := omega) only [RawMem.writeString, write_other, write_same]
  have h208 : m7 (a + 208) = .text [] := by
    rw [fin _ (by omega), k _ (by omega), ← hm2]
    simp (disch := omega) only [RawMem.writeString, write_other, write_same]
  have h216 : m7 (a + 216) = .length 0 := by
    rw [fin _ (by omega), k _ (by omega), ← hm2]
    unfold RawMem.writeString
    exact write_same ..
  have h224 : m7 (a + 224) = .word 0 := by
    rw [fin _ (by omega), k _ (by omega), ← hm2]
    simp (disch := omega) only [RawMem.writeString, write_other, write_same]
  have h232 : m7 (a + 232) = .word 0 := by
    rw [fin _ (by omega), k _ (by omega), ← hm2]
    simp (disch := omega) only [RawMem.writeString, write_other, write_same]
  have fo : Outside (a + 184) 16 m6 m7 := ⟨fun b hb => fin b (by omega)⟩
  refine ⟨⟨h0, h8, h16, ⟨rfl, fun i v hv => ?_⟩, ⟨_, f184, f192, ?_, Nat.zero_le _, ?_⟩, ⟨h208, h216⟩, h224, h232⟩, ⟨fun b hb => ?_⟩⟩
  · have hi : i < 4 := (List.getElem?_eq_some_iff.mp hv).1
    have hv' : v = {} := by
      change (List.replicate 4 ({} : AnnotationV1))[i]? = some v at hv
      rw [List.getElem?_replicate, if_pos hi] at hv
      exact (Option.some.inj hv).symm
    subst hv'
    rw [from_from, from_from, from_from, from_from]
    have r0 : kindAnnotationV1.rep {} (m7.from (a + 24)) :=
      rep_outside (rep_outside (rep_outside (rep_outside c0.rep c1.outside (by omega)) c2.outside (by omega)) c3.outside (by omega)) fo (by omega)
    have r1 : kindAnnotationV1.rep {} (m7.from (a + 64)) := rep_outside (rep_outside (rep_outside c1.rep c2.outside (by omega)) c3.outside (by omega)) fo (by omega)
    have r2 : kindAnnotationV1.rep {} (m7.from (a + 104)) := rep_outside (rep_outside c2.rep c3.outside (by omega)) fo (by omega)
    have r3 : kindAnnotationV1.rep {} (m7.from (a + 144)) := rep_outside c3.rep fo (by omega)
    match i, hi with
    | 0, _ => exact r0
    | 1, _ => exact r1
    | 2, _ => exact r2
    | 3, _ => exact r3
  · show m7 (a + 200) = _
    rw [fin _ (by omega), e200]
    congr 1
    show _ = (List.replicate s.binaryAnnotations.elems.length ({} : BinaryAnnotationV1) ++ s.binaryAnnotations.cells.drop s.binaryAnnotations.len).length
    rw [List.length_append, List.length_replicate, List.length_drop, hlen]
    omega
  · intro i v hv
    change (List.replicate s.binaryAnnotations.elems.length ({} : BinaryAnnotationV1) ++ s.binaryAnnotations.cells.drop s.binaryAnnotations.len)[i]? = some v at hv
    rw [hlen] at hv
    exact clearBinaryAnnotations_rep gel _ gle i v hv
  · have hsz : kindSpanV1.size = 240 := rfl
    rw [fin _ (by omega), k _ (by omega), k2 _ (by omega)]

theorem spanV1_refines (newCap : Nat → Nat → Nat) (fuel : Nat) : Refines kindSpanV1 (Unsafe.spanV1ValueDecoder newCap fuel) (Verif.spanV1ValueDecoder newCap fuel) := by
  intro a mem v hr
  have hc := resetSpanV1_rep hr
  exact RelP.mono (struct_refines (spanV1Fields_refine newCap fuel) fuel a _ _ hc.rep) fun m v h => ⟨h.rep, hc.outside.trans h.outside⟩

theorem zeroSpanV1_rep : kindSpanV1.rep {} Unsafe.zeroSpanV1 := by
  refine ⟨rfl, rfl, rfl, ⟨rfl, fun i v hv => ?_⟩, ⟨_, rfl, rfl, rfl, Nat.le_refl _, fun i v hv => ?_⟩, ⟨rfl, rfl⟩, rfl, rfl⟩
  · have hi : i < 4 := (List.getElem?_eq_some_iff.mp hv).1
    match i, hi with
    | 0, _ => cases hv; exact ⟨rfl, ⟨rfl, rfl⟩, ⟨rfl, rfl⟩⟩
    | 1, _ => cases hv; exact ⟨rfl, ⟨rfl, rfl⟩, ⟨rfl, rfl⟩⟩
    | 2, _ => cases hv; exact ⟨rfl, ⟨rfl, rfl⟩, ⟨rfl, rfl⟩⟩
    | 3, _ => cases hv; exact ⟨rfl, ⟨rfl, rfl⟩, ⟨rfl, rfl⟩⟩
  · cases hv

theorem sliceV1_refines (newCap : Nat → Nat → Nat) (fuel : Nat) : Refines (kindSlice kindSpanV1) (Unsafe.decoderSliceSpanV1 newCap fuel) (Verif.decoderSliceSpanV1 newCap fuel) :=
  slice_refines (K := kindSpanV1) (by decide) zeroSpanV1_rep newCap (spanV1_refines newCap fuel) fuel

end Verif
