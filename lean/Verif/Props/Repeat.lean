import Verif.Proofs.Repeat
import Verif.Props.Endless

/-!
# Isolation of requests, whatever they are

Also of requests that are refused, and of bodies with tokens that do not fit into the buffer.
-/

namespace Verif

open Spec

/-- A request leaves clean memory as clean memory — whatever the body is, whether it is accepted or refused, however it is delivered — unless the body has an object in
which `binaryAnnotations` comes a second time. (Missing: these bodies, see `C28_leaks`.) -/
theorem C28_keeps_partial (newCap : Nat → Nat → Nat) (fuel : Nat) {r : Reader} {buf : List UInt8} (h5 : 5 ≤ buf.length) {pool : List SpanV1} (hp : CleanPool pool)
    (hrep : ¬ Repeats b!"binaryAnnotations" r.data) : CleanPool (parseJsonV1 newCap fuel r buf pool).2 := by
  have hbig : (Parser.newWithReader r buf).work < max fuel ((Parser.newWithReader r buf).work + 1) := by omega
  have hmax : fuel ≤ max fuel ((Parser.newWithReader r buf).work + 1) := Nat.le_max_left _ _
  generalize max fuel ((Parser.newWithReader r buf).work + 1) = big at hbig hmax
  have hle := (decoderSliceSpanV1_le newCap hmax { cells := pool, len := 0 }).run hmax (Parser.newWithReader r buf)
  have hl := bodyV1_leaves newCap hrep big hp
  rw [← newWithReader_rest r buf] at hl
  obtain ⟨h1, h2⟩ := hl.run (decoderSliceSpanV1_safe newCap big _ false) (newWithReader_ok r buf) h5 hbig (by simp)
  have htake : ∀ m : GoSlice SpanV1, CleanPool m.cells → CleanPool (m.cells.take pool.length) := fun m hm s hs => hm s (List.mem_of_mem_take hs)
  unfold parseJsonV1
  cases hr : (decoderSliceSpanV1 newCap fuel { cells := pool, len := 0 }).run fuel (Parser.newWithReader r buf) with
  | ok m p =>
    rw [hr] at hle
    exact htake m (h1 m p (hle (by simp)))
  | err m p =>
    rw [hr] at hle
    exact htake m (h2 m p (hle (by simp)))
  | panic => exact hp
  | timeout => exact hp

/-- What the pool contains after any number of requests: at first, new slices of 64 spans; then slices that went through requests with any bodies that do not repeat
`binaryAnnotations`. -/
inductive PoolAfter (newCap : Nat → Nat → Nat) : List SpanV1 → Prop
  | new : PoolAfter newCap (List.replicate 64 {})
  | request {pool pool' : List SpanV1} {r : Reader} {buf : List UInt8} {out : Parsed} : PoolAfter newCap pool → 5 ≤ buf.length →
      ¬ Repeats b!"binaryAnnotations" r.data → Returns (fun fuel => parseJsonV1 newCap fuel r buf pool) (out, pool') → PoolAfter newCap pool'

theorem PoolAfter.clean {newCap : Nat → Nat → Nat} {pool : List SpanV1} (h : PoolAfter newCap pool) : CleanPool pool := by
  induction h with
  | new => exact fun s hs => (List.eq_of_mem_replicate hs) ▸ clean_default
  | request _ h5 hrep hret ih =>
    obtain ⟨fuel, hret⟩ := hret
    have := C28_keeps_partial newCap fuel h5 ih hrep
    have e := hret fuel (Nat.le_refl _)
    simp only at e
    rw [e] at this
    exact this

/-- After any such history, with accepted and with refused requests, the outcome of any request is that on new memory. -/
theorem C28_requests_partial {newCap : Nat → Nat → Nat} {pool : List SpanV1} (h : PoolAfter newCap pool) (fuel : Nat) (r : Reader) (buf : List UInt8) :
    (parseJsonV1 newCap fuel r buf pool).1 = (parseJsonV1 newCap fuel r buf (List.replicate 64 {})).1 :=
  C28_clean_partial newCap fuel r buf h.clean (PoolAfter.new (newCap := newCap)).clean

/-! ## A history with a refused request -/

theorem runeBytes_length (r : Nat) : (runeBytes r).length ≤ 4 := by
  have h : ∀ r, (utf8 r).length ≤ 4 := by
    intro r
    unfold utf8
    repeat' split
    all_goals simp
  unfold runeBytes
  split <;> exact h _

theorem unescape_length {lit v : Str} (h : unescape lit = some v) : v.length ≤ lit.length := by
  fun_induction unescape lit generalizing v with
  | case1 => simp only [Option.some.injEq] at h; subst h; simp
  | case2 c rest hc ih =>
    obtain ⟨x, hx, rfl⟩ := Option.map_eq_some_iff.mp h
    have := ih hx
    simpa using this
  | case3 => cases h
  | case4 c hc e rest he ih =>
    obtain ⟨x, hx, rfl⟩ := Option.map_eq_some_iff.mp h
    have := ih hx
    simp only [List.length_cons]
    omega
  | case5 => cases h
  | case6 c hc e he h1 h2 h3 h4 rest r hr ih =>
    obtain ⟨x, hx, rfl⟩ := Option.map_eq_some_iff.mp h
    have := ih hx
    have := runeBytes_length r
    simp only [List.length_cons, List.length_append]
    omega
  | case7 => cases h

theorem begins_length {v : Loose} {t s : Str} (h : Begins v t s) : s.length ≤ t.length := by
  obtain ⟨N, hN⟩ := skipValue_begins h
  exact (Prog.stream_suffix (hN N (Nat.le_refl _) [] false (fun _ h => (nomatch h)))).length_le

theorem membersBefore_length {ms : List (Str × Loose)} {u s : Str} (h : MembersBefore ms u s) :
    s.length ≤ u.length ∧ ∀ name ∈ ms.map Prod.fst, name.length + 2 + s.length ≤ u.length := by
  induction h with
  | nil => exact ⟨Nat.le_refl _, by simp⟩
  | cons hw hl hw' hv _ ih =>
    have h1 := unescape_length hl.2
    have h2 := begins_length hv
    obtain ⟨i1, i2⟩ := ih
    simp only [List.length_append, List.length_cons]
    refine ⟨by omega, fun name hn => ?_⟩
    rcases List.mem_cons.mp hn with rfl | hn
    · omega
    · have := i2 name hn
      omega

/-- A body with a repeated name is long enough for two of them. -/
theorem repeats_length {name data : Str} (h : Repeats name data) : 2 * name.length + 5 ≤ data.length := by
  obtain ⟨p, u, ms, s, rfl, hms, hn, w, lit, rest, rfl, hw, hl⟩ := h
  have h1 := (membersBefore_length hms).2 name hn
  have h2 := unescape_length hl.2
  simp only [List.length_append, List.length_cons] at h1 ⊢
  omega

/-- A body that ends in the middle of a binary annotation is refused. What was decoded of it stays in the memory, but the next request does not see it. -/
theorem C28_refused_witness :
    let body1 := b!"[{\"binaryAnnotations\":[{\"key\":\"k\""
    let body2 := b!"[{\"binaryAnnotations\":[{}]}]"
    let newCap : Nat → Nat → Nat := fun _ n => n
    let rest : BinaryAnnotationV1 := { key := b!"k" }
    let pool : List SpanV1 := { binaryAnnotations := { cells := [rest], len := 1 } } :: List.replicate 63 {}
    let plain : List UInt8 → Reader := fun data => { data, script := [], failing := false, idle := false }
    let buf : List UInt8 := List.replicate 64 0
    Returns (fun fuel => parseJsonV1 newCap fuel (plain body1) buf (List.replicate 64 {})) (.err, pool) ∧ PoolAfter newCap pool ∧
    ∃ s pool', Returns (fun fuel => parseJsonV1 newCap fuel (plain body2) buf pool) (.spans [s], pool') ∧ s.tag b!"k" = none := by
  have h : Returns (fun fuel => parseJsonV1 (fun _ n => n) fuel ({ data := b!"[{\"binaryAnnotations\":[{\"key\":\"k\"", script := [], failing := false, idle := false })
      (List.replicate 64 0) (List.replicate 64 {}))
      (.err, { binaryAnnotations := { cells := [{ key := b!"k" }], len := 1 } } :: List.replicate 63 {}) := by
    refine outcomeV1_returns (size := 64) (by decide) (data := b!"[{\"binaryAnnotations\":[{\"key\":\"k\"") (by decide)
      (out := .err { cells := { binaryAnnotations := { cells := [{ key := b!"k" }], len := 1 } } :: List.replicate 63 {}, len := 1 }) ?_ _ _ rfl (by decide)
    exact (decodesV1 _ _).settles_of (fuel := 20) rfl (by simp)
  refine ⟨h, .request .new (by decide) (fun hr => ?_) h, ?_⟩
  · exact absurd (repeats_length hr) (by decide)
  · exact ⟨_, _, parsesV1_of_stream (fuel := 20) (m := { cells := { binaryAnnotations := { cells := [{}], len := 1 } } :: List.replicate 63 {}, len := 1 }) (b := false) (s := []) rfl
      _ _ rfl (by decide) (by decide), by decide +kernel⟩

end Verif
