import Verif.Proofs.Unsafe

/-!
# C163: decoders with unsafe pointers

The offsets and types that are given to the decoders are right, so that what is in memory afterwards is the value that Model/Json.lean says, and nothing else in memory has changed.
-/

namespace Verif

open Spec

/-- C163: whatever is in the body, the decoder of a slice of v2 spans, which writes to memory, has the outcome of the decoder of values, leaves the parser in the same state, and, however it ends, there is in memory
what the other one returns; nothing but the slice changes. -/
theorem C163_v2 (newCap : Nat → Nat → Nat) (fuel : Nat) (a : Nat) (mem : RawMem) (s : GoSlice SpanV2) (hs : (kindSlice kindSpanV2).rep s (mem.from a)) (p : Parser) :
    RelDecoded (At (kindSlice kindSpanV2) a mem) ((Unsafe.decoderSliceSpanV2 newCap fuel a mem).run fuel p) ((decoderSliceSpanV2 newCap fuel s).run fuel p) :=
  RelP.run (sliceV2_refines newCap fuel a mem s hs) fuel p

/-- C163: the same for v1 spans, with their array of annotations and their slice of binary annotations within a span, and with memory that has been used before. -/
theorem C163_v1 (newCap : Nat → Nat → Nat) (fuel : Nat) (a : Nat) (mem : RawMem) (s : GoSlice SpanV1) (hs : (kindSlice kindSpanV1).rep s (mem.from a)) (p : Parser) :
    RelDecoded (At (kindSlice kindSpanV1) a mem) ((Unsafe.decoderSliceSpanV1 newCap fuel a mem).run fuel p) ((decoderSliceSpanV1 newCap fuel s).run fuel p) :=
  RelP.run (sliceV1_refines newCap fuel a mem s hs) fuel p

/-- C163: a span next to other spans in an array: if it is decoded, the cells of the others are as before, at any time, also if there is an error. -/
theorem C163_element (newCap : Nat → Nat → Nat) (fuel : Nat) :
    Refines kindSpanV2 (Unsafe.spanV2ValueDecoder fuel) (spanV2ValueDecoder fuel) ∧ Refines kindSpanV1 (Unsafe.spanV1ValueDecoder newCap fuel) (spanV1ValueDecoder newCap fuel) :=
  ⟨spanV2_refines fuel, spanV1_refines newCap fuel⟩

/-- No two values are laid out in the same way. -/
def Telling {τ : Type} (K : Kind τ) : Prop := ∀ {m : RawMem} {s t : τ}, K.rep s m → K.rep t m → s = t

theorem telling_word : Telling kindWord := fun hs ht => Cell.word.inj (hs.symm.trans ht)

theorem telling_id : Telling kindId := by
  intro m s t hs ht
  have h := Cell.word.inj (hs.symm.trans ht)
  cases s; cases t; exact congrArg Int64.ofUInt64 h

theorem telling_string : Telling kindString := fun hs ht => Cell.text.inj (hs.1.symm.trans ht.1)

theorem telling_map : Telling kindMap := fun hs ht => Cell.map.inj (hs.symm.trans ht)

theorem telling_and {σ τ : Type} {K : Kind σ} {L : Kind τ} (hK : Telling K) (hL : Telling L) : Telling (K.and L) := fun hs ht => Prod.ext (hK hs.1 ht.1) (hL hs.2 ht.2)

theorem telling_of {σ τ : Type} {K : Kind τ} {f : σ → τ} (hK : Telling K) (hf : ∀ {x y}, f x = f y → x = y) : Telling (K.of f) := fun hs ht => hf (hK hs ht)

theorem telling_elements {α : Type} {K : Kind α} (hK : Telling K) {m : RawMem} {l l' : List α} (hn : l.length = l'.length)
    (hs : ∀ (i : Nat) (v : α), l[i]? = some v → K.rep v (m.from (i * K.size))) (ht : ∀ (i : Nat) (v : α), l'[i]? = some v → K.rep v (m.from (i * K.size))) : l = l' := by
  refine List.ext_getElem hn fun i h h' => ?_
  exact hK (hs i _ (List.getElem?_eq_getElem h)) (ht i _ (List.getElem?_eq_getElem h'))

theorem telling_array {α : Type} {K : Kind α} (hK : Telling K) (n : Nat) : Telling (kindArray K n) := fun hs ht => telling_elements hK (hs.1.trans ht.1.symm) hs.2 ht.2

theorem telling_slice {α : Type} {K : Kind α} (hK : Telling K) : Telling (kindSlice K) := by
  intro m s t ⟨array, s0, s1, s2, _, s3⟩ ⟨array', t0, t1, t2, _, t3⟩
  have e := Cell.array.inj (s0.symm.trans t0)
  subst e
  have h1 := Cell.length.inj (s1.symm.trans t1)
  have h2 := telling_elements hK (Cell.length.inj (s2.symm.trans t2)) s3 t3
  cases s; cases t
  simp only at h1 h2
  subst h1 h2
  rfl

theorem telling_endpoint : Telling kindEndpoint := telling_of telling_string fun {x y} h => by cases x; cases y; exact congrArg Endpoint.mk h

/-- C163: the memory determines the slice, with all spans in it. So what the theorems above say about memory is not true of two different slices. -/
theorem C163_determined : Telling (kindSlice kindSpanV2) ∧ Telling (kindSlice kindSpanV1) := by
  have ha : Telling kindAnnotationV1 := telling_of (telling_and telling_word (telling_and telling_string telling_endpoint)) fun {x y} h => by
    cases x; cases y; simp only [Prod.mk.injEq] at h; obtain ⟨rfl, rfl, rfl⟩ := h; rfl
  have hb : Telling kindBinaryAnnotationV1 := telling_of (telling_and telling_string (telling_and telling_string telling_endpoint)) fun {x y} h => by
    cases x; cases y; simp only [Prod.mk.injEq] at h; obtain ⟨rfl, rfl, rfl⟩ := h; rfl
  refine ⟨telling_slice (telling_of (telling_and telling_id (telling_and telling_id (telling_and telling_id (telling_and telling_string (telling_and telling_endpoint (telling_and telling_map
      (telling_and telling_string (telling_and telling_word telling_word)))))))) fun {x y} h => ?_),
    telling_slice (telling_of (telling_and telling_id (telling_and telling_id (telling_and telling_id (telling_and (telling_array ha 4) (telling_and (telling_slice hb)
      (telling_and telling_string (telling_and telling_word telling_word))))))) fun {x y} h => ?_)⟩
  · cases x; cases y; simp only [Prod.mk.injEq] at h; obtain ⟨rfl, rfl, rfl, rfl, rfl, rfl, rfl, rfl, rfl⟩ := h; rfl
  · cases x; cases y; simp only [Prod.mk.injEq] at h; obtain ⟨rfl, rfl, rfl, rfl, rfl, rfl, rfl, rfl⟩ := h; rfl

/-! ## A document -/

/-- An empty slice at 16, between other values. -/
def memoryBefore : RawMem :=
  ((((RawMem.write (fun _ => .spoiled) 8 (.word 77)).write 16 (.array fun _ => .spoiled)).write 24 (.length 0)).write 32 (.length 0)).write 40 (.word 88)

def bodyInMemory : Str := b!"[{\"id\":\"1\",\"name\":\"a\",\"timestamp\":3},{\"traceId\":\"2\",\"localEndpoint\":{\"serviceName\":\"b\"}}]"

def cellIsWord (n : UInt64) : Cell → Bool
  | .word k => k == n
  | _ => false

def cellIsText (s : Str) : Cell → Bool
  | .text t => t == s
  | _ => false

def cellIsLength (n : Nat) : Cell → Bool
  | .length k => k == n
  | _ => false

/-- What is in memory after the decoder has returned without an error. -/
def memoryAfter (u : UnsafeDecoder) (a : Nat) (body : Str) : RawMem :=
  match (u a memoryBefore).run 300 (Parser.newWithBytes body) with
  | .ok m _ => m
  | _ => fun _ => .spoiled

/-- The array of the slice at an address. -/
def arrayBehind (m : RawMem) (a : Nat) : RawMem :=
  match m a with
  | .array array => array
  | _ => fun _ => .spoiled

/-- C163: there are bodies with spans; and a decoder with a wrong offset does not do what the theorem says: if the name of the service is written eight bytes too far, it spoils the neighbour. -/
theorem C163_witness :
    (let m := memoryAfter (Unsafe.decoderSliceSpanV2 (fun _ n => n) 300) 16 bodyInMemory
     let array := arrayBehind m 16
     cellIsWord 77 (m 8) ∧ cellIsLength 2 (m 24) ∧ cellIsLength 2 (m 32) ∧ cellIsWord 88 (m 40) ∧
     cellIsWord 1 (array 8) ∧ cellIsText b!"a" (array 24) ∧ cellIsWord 3 (array 80) ∧
     cellIsWord 2 (array 96) ∧ cellIsText b!"b" (array (96 + 40)) ∧ cellIsLength 1 (array (96 + 48)) ∧ cellIsText [] (array (96 + 24))) ∧
    (kindSlice kindSpanV2).rep { cells := [], len := 0 } (memoryBefore.from 16) ∧
    ¬ Refines kindEndpoint (Unsafe.makeStructDecoder 300 [(b!"serviceName", 8, Unsafe.stringValueDecoder)]) (endpointValueDecoder 300) := by
  refine ⟨by decide +kernel, ⟨_, rfl, rfl, rfl, Nat.le_refl _, fun i v hv => by cases hv⟩, fun h => ?_⟩
  have hr := RelP.run (h 0 ((memoryBefore.writeString 0 []).write 16 (.word 5)) {} ⟨rfl, rfl⟩) 300 (Parser.newWithBytes b!"{\"serviceName\":\"b\"}")
  have hm : ∀ {d : Decoded RawMem} {e : Decoded Endpoint}, RelDecoded (At kindEndpoint 0 ((memoryBefore.writeString 0 []).write 16 (.word 5))) d e →
      ∀ {m p}, d = .ok m p → cellIsWord 5 (m 16) := by
    intro d e hd m p he
    subst he
    cases hd with
    | ok h =>
      have := h.outside.same 16 (Or.inr (by decide))
      rw [this]
      decide +kernel
  have hf : (match (Unsafe.makeStructDecoder 300 [(b!"serviceName", 8, Unsafe.stringValueDecoder)] 0 ((memoryBefore.writeString 0 []).write 16 (.word 5))).run 300 (Parser.newWithBytes b!"{\"serviceName\":\"b\"}") with
      | .ok m _ => cellIsWord 5 (m 16)
      | _ => true) = false := by decide +kernel
  generalize hg : (Unsafe.makeStructDecoder 300 [(b!"serviceName", 8, Unsafe.stringValueDecoder)] 0 ((memoryBefore.writeString 0 []).write 16 (.word 5))).run 300
    (Parser.newWithBytes b!"{\"serviceName\":\"b\"}") = d at hf hr
  cases d with
  | ok m p => dsimp only at hf; rw [show cellIsWord 5 (m 16) = true from hm hr rfl] at hf; cases hf
  | err _ _ => cases hf
  | panic => cases hf
  | timeout => cases hf

end Verif
