import Verif.Proofs.Avro
import Verif.Props.Binary

/-!
# C114: the messages on Kafka are Avro

`Spec/Avro.lean` says how Avro writes a record of the fields of a span.
-/

namespace Verif

open Spec

/-- C114: what `BinaryEncode` writes is Avro, as short as it can be and with all tags in one block. -/
theorem C114_encode (s : Span) (ord : List (Str × Str)) (he : Encodable s) (ho : IsRange ord (s.tags.getD ∅)) : (Avro.plain (2 ^ 31)).Record s.withTags (binaryEncode s ord) := by
  obtain ⟨hn, hsv, hsz, ht⟩ := he
  have hl : ord.length < 2 ^ 63 := by rw [ho.length_eq, Std.ExtTreeMap.length_toList]; exact hsz
  have hent : ∀ e ∈ ord, e.1.length < 2 ^ 31 ∧ e.2.length < 2 ^ 31 := by
    intro e he
    exact ht e.1 e.2 (Std.ExtTreeMap.mem_toList_iff_getElem?_eq_some.mp (ho.mem_iff.mp he))
  refine ⟨_, _, _, _, _, _, _, _, _, _, _, _, ord, s.tags.getD ∅, writeLong_plain s.id _, writeLong_plain s.trace _, writeLong_plain s.parent _, writeString_plain s.name hn (by decide), writeString_plain s.service hsv (by decide),
    writeLong_plain s.timestamp _, writeLong_plain s.duration _, writeLong_plain s.timings.CS _, writeLong_plain s.timings.CR _, writeLong_plain s.timings.SS _, writeLong_plain s.timings.SR _,
    writeMapString_plain (by decide) ord hl hent, (mapOfEntries_iff _ _).mpr (insertAll_range _ _ ho).symm, rfl, ?_⟩
  unfold binaryEncode
  simp only [List.append_assoc]

/-- C114: what `BinaryDecode` accepts, and with which result. -/
theorem C114_decode (bs rest : List UInt8) (s : Span) : binaryDecode bs = some (s, rest) ↔ ∃ msg, bs = msg ++ rest ∧ Avro.lenient.Record s msg := decode_record bs rest s

/-- C114: everything that is Avro is accepted, from whatever writer; the strings have to be shorter than 2 GiB. -/
theorem C114_standard (s : Span) (msg rest : List UInt8) (hlen : msg.length < 2 ^ 63) (h : (Avro.standard (2 ^ 31)).Record s msg) : binaryDecode (msg ++ rest) = some (s, rest) :=
  (C114_decode _ _ _).mpr ⟨msg, rfl, standard_within.record (fun _ _ h => varint_ne_nil h) hlen h⟩

/-- C114: a byte sequence says at most one thing. -/
theorem C114_unique (s s' : Span) (msg msg' rest rest' : List UInt8) (h : Avro.lenient.Record s msg) (h' : Avro.lenient.Record s' msg') (e : msg ++ rest = msg' ++ rest') : s = s' ∧ msg = msg' ∧ rest = rest' := by
  have h1 := (C114_decode (msg ++ rest) rest s).mpr ⟨msg, rfl, h⟩
  have h2 := (C114_decode (msg ++ rest) rest' s').mpr ⟨msg', e, h'⟩
  rw [h1] at h2
  cases h2
  exact ⟨rfl, List.append_cancel_right e, rfl⟩

/-- The beginning of a message. -/
def avroHead : List UInt8 := [2, 4, 0, 2, 97, 0, 6, 7, 0, 0, 0, 0]

/-- Identifier, name, time stamp, duration and tags of the span, and the remaining bytes. -/
def avroShown (bs : List UInt8) : Option (List Int64 × List (List Str) × List UInt8) :=
  (binaryDecode bs).map fun r => ([r.1.id, r.1.timestamp, r.1.duration], [r.1.name] :: (r.1.tags.getD ∅).toList.map (fun e => [e.1, e.2]), r.2)

/-- C114: several blocks, one of them with its size; a key in two blocks; a wrong size; a number with too many groups and one with a group of zeros at the end; the smallest number of entries;
a negative length of a string. -/
theorem C114_examples :
    avroShown (avroHead ++ [2, 2, 120, 2, 121, 1, 8, 2, 122, 2, 119, 0]) = some ([1, 3, -4], [[b!"a"], [b!"x", b!"y"], [b!"z", b!"w"]], []) ∧
    avroShown (avroHead ++ [2, 2, 120, 2, 121, 2, 2, 120, 2, 122, 0]) = some ([1, 3, -4], [[b!"a"], [b!"x", b!"z"]], []) ∧
    avroShown (avroHead ++ [1, 99, 2, 120, 2, 121, 0]) = some ([1, 3, -4], [[b!"a"], [b!"x", b!"y"]], []) ∧
    avroShown ([130, 128, 128, 128, 128, 128, 128, 128, 128, 128, 128, 127] ++ avroHead.tail ++ [128, 0, 5]) = some ([1, 3, -4], [[b!"a"]], [5]) ∧
    avroShown (avroHead ++ [255, 255, 255, 255, 255, 255, 255, 255, 255, 1, 0, 0]) = some ([1, 3, -4], [[b!"a"]], []) ∧
    avroShown (avroHead ++ [2, 1, 0]) = none := by
  refine ⟨?_, ?_, ?_, ?_, ?_, ?_⟩ <;> decide +kernel

end Verif
