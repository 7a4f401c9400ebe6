import Verif.Model.Unsafe

/-!
# Values in memory

`Kind`: how a value of a type is laid out in memory. `Refines`: a decoder that writes to memory does what a decoder of values does.
-/

namespace Verif.Spec

/-- `mem'` is `mem` but for the `n` bytes from `a` on: all cells that do not overlap with these bytes are as before. -/
structure Outside (a n : Nat) (mem mem' : RawMem) : Prop where
  same : ∀ b, b + 8 ≤ a ∨ a + n ≤ b → mem' b = mem b

/-- How values of a type are laid out: the number of bytes, and that a value is at the start of a memory, which is a matter of the cells within these bytes. -/
structure Kind (τ : Type) where
  size : Nat
  rep : τ → RawMem → Prop
  loc : ∀ {v m m'}, (∀ b, b + 8 ≤ size → m' b = m b) → rep v m → rep v m'

/-- Two decoders call the same operations of the parser in the same order, and return at the same time in the same way; at any time what they leave is related. -/
inductive RelProg {σ τ : Type} (R : σ → τ → Prop) : Prog σ → Prog τ → Prop
  | done {m v} : R m v → RelProg R (.done m) (.done v)
  | fail {m v} : R m v → RelProg R (.fail m) (.fail v)
  | timeout : RelProg R .timeout .timeout
  | op {o : Op} {m v} {k : o.Res → Prog σ} {k' : o.Res → Prog τ} : R m v → (∀ r, RelProg R (k r) (k' r)) → RelProg R (.op o m k) (.op o v k')

/-- The value `v` is at `a`, and apart from that the memory is `mem`. -/
structure At {τ : Type} (K : Kind τ) (a : Nat) (mem mem' : RawMem) (v : τ) : Prop where
  rep : K.rep v (mem'.from a)
  outside : Outside a K.size mem mem'

/-- Whatever address the decoder is given, if there is a value, then it does with this value what the other decoder does, and nothing else in memory changes. -/
def Refines {τ : Type} (K : Kind τ) (u : UnsafeDecoder) (d : ValueDecoder τ) : Prop :=
  ∀ (a : Nat) (mem : RawMem) (v : τ), K.rep v (mem.from a) → RelProg (At K a mem) (u a mem) (d v)

/-- The outcomes of two decoders correspond. -/
inductive RelDecoded {σ τ : Type} (R : σ → τ → Prop) : Decoded σ → Decoded τ → Prop
  | ok {m v p} : R m v → RelDecoded R (.ok m p) (.ok v p)
  | err {m v p} : R m v → RelDecoded R (.err m p) (.err v p)
  | panic : RelDecoded R .panic .panic
  | timeout : RelDecoded R .timeout .timeout

/-! ## Layouts -/

def kindWord : Kind UInt64 where
  size := 8
  rep v m := m 0 = .word v
  loc h hr := (h 0 (by decide)).trans hr

def kindId : Kind Id where
  size := 8
  rep v m := m 0 = .word v.toUInt64
  loc h hr := (h 0 (by decide)).trans hr

def kindString : Kind Str where
  size := 16
  rep v m := m 0 = .text v ∧ m 8 = .length v.length
  loc h hr := ⟨(h 0 (by decide)).trans hr.1, (h 8 (by decide)).trans hr.2⟩

def kindMap : Kind (Option TagMap) where
  size := 8
  rep v m := m 0 = .map v
  loc h hr := (h 0 (by decide)).trans hr

/-- Elements next to each other. -/
def kindArray {α : Type} (K : Kind α) (n : Nat) : Kind (List α) where
  size := n * K.size
  rep l m := l.length = n ∧ ∀ (i : Nat) (v : α), l[i]? = some v → K.rep v (m.from (i * K.size))
  loc h hr := by
    refine ⟨hr.1, fun i v hv => K.loc (fun b hb => ?_) (hr.2 i v hv)⟩
    have hi : i < _ := (List.getElem?_eq_some_iff.mp hv).1
    rw [hr.1] at hi
    have := Nat.mul_le_mul_right K.size (Nat.succ_le_of_lt hi)
    rw [Nat.succ_mul] at this
    exact h _ (by omega)

/-- Pointer, length and capacity; behind the pointer are the elements next to each other, up to the capacity. -/
def kindSlice {α : Type} (K : Kind α) : Kind (GoSlice α) where
  size := 24
  rep s m := ∃ array : RawMem, m 0 = .array array ∧ m 8 = .length s.len ∧ m 16 = .length s.cells.length ∧ s.len ≤ s.cells.length ∧
    ∀ (i : Nat) (v : α), s.cells[i]? = some v → K.rep v (array.from (i * K.size))
  loc h hr := by
    obtain ⟨array, h0, h1, h2, h3⟩ := hr
    exact ⟨array, (h 0 (by decide)).trans h0, (h 8 (by decide)).trans h1, (h 16 (by decide)).trans h2, h3⟩

/-- Two layouts next to each other. -/
def Kind.and {σ τ : Type} (K : Kind σ) (L : Kind τ) : Kind (σ × τ) where
  size := K.size + L.size
  rep v m := K.rep v.1 m ∧ L.rep v.2 (m.from K.size)
  loc h hr := ⟨K.loc (fun b hb => h b (by omega)) hr.1, L.loc (fun b hb => h (K.size + b) (by omega)) hr.2⟩

/-- The layout of a struct, as that of a tuple of its fields in the order in which they are declared. -/
def Kind.of {σ τ : Type} (K : Kind τ) (f : σ → τ) : Kind σ where
  size := K.size
  rep v m := K.rep (f v) m
  loc h hr := K.loc h hr

/-- codec/json-v1.go:40-42. -/
def kindEndpoint : Kind Endpoint := kindString.of Endpoint.serviceName

/-- codec/json-v2.go:14-29. -/
def kindSpanV2 : Kind SpanV2 :=
  (kindId.and (kindId.and (kindId.and (kindString.and (kindEndpoint.and (kindMap.and (kindString.and (kindWord.and kindWord)))))))).of
    fun s => (s.traceId, s.id, s.parentId, s.name, s.endpoint, s.tags, s.kind, s.timestamp, s.duration)

/-- codec/json-v1.go:28-32. -/
def kindAnnotationV1 : Kind AnnotationV1 := (kindWord.and (kindString.and kindEndpoint)).of fun a => (a.timestamp, a.value, a.endpoint)

/-- codec/json-v1.go:34-38. -/
def kindBinaryAnnotationV1 : Kind BinaryAnnotationV1 := (kindString.and (kindString.and kindEndpoint)).of fun a => (a.key, a.value, a.endpoint)

/-- codec/json-v1.go:14-26. -/
def kindSpanV1 : Kind SpanV1 :=
  (kindId.and (kindId.and (kindId.and ((kindArray kindAnnotationV1 4).and ((kindSlice kindBinaryAnnotationV1).and (kindString.and (kindWord.and kindWord))))))).of
    fun s => (s.traceId, s.id, s.parentId, s.annotations, s.binaryAnnotations, s.name, s.timestamp, s.duration)

end Verif.Spec
