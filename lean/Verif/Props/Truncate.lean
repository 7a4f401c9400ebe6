import Verif.Proofs.Needed
import Verif.Props.Accept
import Verif.Proofs.Scan
import Verif.Props.Jaeger

/-!
# Truncated requests (C78)
-/

namespace Verif

open Spec

/-! ## C78: a request of which the end is missing is rejected -/

/-- Version 2: in a body that is accepted, there are bytes that it needs, the last of which is a closing bracket. They give the same spans whatever follows them; if the last of
them are missing — whether the connection was closed or failed — the request is rejected. (The buffers of the program have 8192 bytes.) -/
theorem C78_v2 {newCap : Nat → Nat → Nat} {r : Reader} {buf : List UInt8} (h5 : 5 ≤ buf.length) {spans : List Span}
    (h : Returns (fun fuel => parseJsonV2 newCap fuel r buf) (.spans spans)) :
    ∃ p q, r.data = p ++ q ∧ p.getLast? = some c!"]" ∧
      (∀ q' (r' : Reader) (buf' : List UInt8), r'.data = p ++ q' → buf.length ≤ buf'.length →
        Returns (fun fuel => parseJsonV2 newCap fuel r' buf') (.spans spans)) ∧
      ∀ x y (r' : Reader) (buf' : List UInt8), p = x ++ y → y ≠ [] → r'.data = x → buf.length ≤ buf'.length → Returns (fun fuel => parseJsonV2 newCap fuel r' buf') .err := by
  have h0 : 0 < buf.length := by omega
  obtain ⟨data, rest, hdata, hfit, r1, hr1, h⟩ := accepted_v2 h5 h
  have hd := decodesV2 newCap
  have hs := hd.settles data
  have hout := Returns.unique h (outcomeV2_returns h0 hfit hs r1 buf hr1 (Nat.le_refl _))
  cases ho : (decoderSliceSpanV2 newCap (2 * data.length + 1) { cells := [], len := 0 }).stream false data with
  | ok m b q =>
    rw [ho] at hs hout
    rw [outcomeV2, Parsed.spans.injEq] at hout
    subst hout
    obtain ⟨p, e⟩ := hd.splits hs
    have e' : data = (p ++ [c!"]"]) ++ q := by rw [e]; simp
    rw [e'] at hs
    obtain ⟨k1, k2⟩ := hd.needs hs
    rw [e'] at hfit
    have hfit := fitsFrom_append hfit
    refine ⟨p ++ [c!"]"], q ++ rest, by rw [hdata, e', List.append_assoc], by simp, ?_, ?_⟩
    · intro q' r' buf' hr' hb'
      exact outcomeV2_anything h0 hfit (by simpa only [List.append_nil] using k1 []) q' r' buf' hr' hb'
    · intro x y r' buf' hxy hy hr' hb'
      obtain ⟨m', hm⟩ := k2 x y hxy hy
      rw [hxy] at hfit
      exact outcomeV2_returns h0 (fitsFrom_append hfit) hm r' buf' hr' hb'
  | err m => rw [ho, outcomeV2] at hout; cases hout
  | bad => rw [ho, outcomeV2] at hout; cases hout
  | timeout => rw [ho, outcomeV2] at hout; cases hout

/-- Version 1: the same, for any content of the pooled memory. -/
theorem C78_v1 {newCap : Nat → Nat → Nat} {pool : List SpanV1} {r : Reader} {buf : List UInt8} (h5 : 5 ≤ buf.length) {spans : List Span} {pool' : List SpanV1}
    (h : Returns (fun fuel => parseJsonV1 newCap fuel r buf pool) (.spans spans, pool')) :
    ∃ p q, r.data = p ++ q ∧ p.getLast? = some c!"]" ∧
      (∀ q' (r' : Reader) (buf' : List UInt8), r'.data = p ++ q' → buf.length ≤ buf'.length →
        Returns (fun fuel => parseJsonV1 newCap fuel r' buf' pool) (.spans spans, pool')) ∧
      ∀ x y (r' : Reader) (buf' : List UInt8), p = x ++ y → y ≠ [] → r'.data = x → buf.length ≤ buf'.length →
        ∃ pool'', Returns (fun fuel => parseJsonV1 newCap fuel r' buf' pool) (.err, pool'') := by
  have h0 : 0 < buf.length := by omega
  obtain ⟨data, rest, hdata, hfit, r1, hr1, h⟩ := accepted_v1 h5 h
  have hd := decodesV1 newCap pool
  have hs := hd.settles data
  have hout := Returns.unique h (outcomeV1_returns h0 hfit hs r1 buf hr1 (Nat.le_refl _))
  cases ho : (decoderSliceSpanV1 newCap (2 * data.length + 1) { cells := pool, len := 0 }).stream false data with
  | ok m b q =>
    rw [ho] at hs hout
    rw [outcomeV1, Prod.mk.injEq, Parsed.spans.injEq] at hout
    obtain ⟨rfl, rfl⟩ := hout
    obtain ⟨p, e⟩ := hd.splits hs
    have e' : data = (p ++ [c!"]"]) ++ q := by rw [e]; simp
    rw [e'] at hs
    obtain ⟨k1, k2⟩ := hd.needs hs
    rw [e'] at hfit
    have hfit := fitsFrom_append hfit
    refine ⟨p ++ [c!"]"], q ++ rest, by rw [hdata, e', List.append_assoc], by simp, ?_, ?_⟩
    · intro q' r' buf' hr' hb'
      exact outcomeV1_anything h0 hfit (by simpa only [List.append_nil] using k1 []) q' r' buf' hr' hb'
    · intro x y r' buf' hxy hy hr' hb'
      obtain ⟨m', hm⟩ := k2 x y hxy hy
      rw [hxy] at hfit
      exact ⟨_, outcomeV1_returns h0 (fitsFrom_append hfit) hm r' buf' hr' hb'⟩
  | err m => rw [ho, outcomeV1] at hout; cases hout
  | bad => rw [ho, outcomeV1] at hout; cases hout
  | timeout => rw [ho, outcomeV1] at hout; cases hout

/-- Jaeger: the same. The bytes that are needed are white space and one JSON text, an object or `null`. -/
theorem C78_jaeger {floatFails : Str → Bool} {env : HandlerEnv} {fuel : Nat} {req : Request} {r : Reader} {spans : List Span}
    (henv : ∀ r, env.decodeJaeger r = goDecodeJaeger floatFails r.data) (hroute : req.route = .jaeger) (hdel : req.Delivers r) (h : handleRequest env fuel req = .spans spans) :
    ∃ w t q, r.data = w ++ (t ++ q) ∧ Blank w ∧ (t.head? = some c!"{" ∨ t = b!"null") ∧
      (∀ q', ParsesJaeger floatFails (w ++ (t ++ q')) spans) ∧
      ∀ x y, w ++ t = x ++ y → y ≠ [] → RejectsJaeger floatFails x := by
  cases hd : goDecodeJaeger floatFails r.data with
  | none =>
    rw [rejectsJaeger hd env fuel req r henv hroute hdel rfl] at h
    cases h
  | some l =>
    rw [parsesJaeger hd env fuel req r henv hroute hdel rfl] at h
    injection h with h
    subst h
    obtain ⟨w, t, q, e, ha⟩ := jaeger_accepted hd
    exact ⟨w, t, q, e, ha.blank, ha.shape, fun q' => parsesJaeger (ha.decodes q'), fun x y hx hy => rejectsJaeger (ha.prefix_fails hx hy)⟩

/-- A document of version 2 of which the end is missing, however little of it, is rejected. -/
theorem C78_document_v2 {l : List Json} {vs : List SpanV2} {w t x y : Str} (hw : Blank w) (ht : Writes PlainNumber (.array l) t) (hd : Pairwise₂ (SpanV2Of PlainString) l vs)
    (hx : w ++ t = x ++ y) (hy : y ≠ []) : RejectsV2 x := by
  intro newCap r buf hr hfit h0
  cases ht with
  | @array _ t ht =>
    have hfresh : Fresh ({} : SpanV2) (fun _ => True) 0 { cells := [], len := 0 } := ⟨rfl, Nat.zero_le _, fun _ _ => trivial⟩
    obtain ⟨N, hN⟩ := sliceLoop_reads (newCap := newCap) (good := fun _ => True) trivial (pairwise_spansV2 readable_plain hd) hfresh ht
    have hs := (decodesV2 newCap).settles_of (data := (w ++ (c!"[" :: (t ++ [c!"]"]))) ++ []) (fuel := N)
      (out := .ok (pushAll newCap {} (vs.map fun v _ => v) 0 { cells := [], len := 0 }) false []) (by
      unfold decoderSliceSpanV2 makeSliceDecoder
      simp only [List.cons_append, List.append_assoc]
      rw [stream_consume (sep_blank hw) (c := c!"[") (by decide) (t := .arrayBegin) (by decide)]
      exact hN N N (Nat.le_refl _) (Nat.le_refl _) [] [] false Sep.nil) (by simp)
    obtain ⟨m', hm⟩ := ((decodesV2 newCap).needs hs).2 x y hx hy
    exact outcomeV2_returns h0 hfit hm r buf hr (Nat.le_refl _)

theorem document_v1_clean (newCap : Nat → Nat → Nat) {pool : List SpanV1} (hp : CleanPool pool) {l : List Json} {vs : List SpanV1} {w t x y : Str} (hw : Blank w)
    (ht : Writes PlainNumber (.array l) t) (hd : Pairwise₂ (SpanV1Of PlainString) l vs) (hx : w ++ t = x ++ y) (hy : y ≠ []) {r : Reader} {buf : List UInt8} (hr : r.data = x)
    (hfit : TokensFit buf.length x) (h0 : 0 < buf.length) : ∃ pool', Returns (fun fuel => parseJsonV1 newCap fuel r buf pool) (.err, pool') := by
  cases ht with
  | @array _ t ht =>
    obtain ⟨fs, hf1, hf2⟩ := pairwise_spansV1 readable_plain newCap hd
    have hfresh : Fresh ({} : SpanV1) Clean 0 { cells := pool, len := 0 } := ⟨rfl, Nat.zero_le _, fun i _ => cleanPool_getD.mp hp i⟩
    obtain ⟨N, hN⟩ := sliceLoop_reads (newCap := newCap) clean_default hf1 hfresh ht
    have hs := (decodesV1 newCap pool).settles_of (data := (w ++ (c!"[" :: (t ++ [c!"]"]))) ++ []) (fuel := N)
      (out := .ok (pushAll newCap {} fs 0 { cells := pool, len := 0 }) false []) (by
      unfold decoderSliceSpanV1 makeSliceDecoder
      simp only [List.cons_append, List.append_assoc]
      rw [stream_consume (sep_blank hw) (c := c!"[") (by decide) (t := .arrayBegin) (by decide)]
      exact hN N N (Nat.le_refl _) (Nat.le_refl _) [] [] false Sep.nil) (by simp)
    obtain ⟨m', hm⟩ := ((decodesV1 newCap pool).needs hs).2 x y hx hy
    exact ⟨_, outcomeV1_returns h0 hfit hm r buf hr (Nat.le_refl _)⟩

theorem fitsFrom_long {size : Nat} : ∀ (st : LexState) (data : List UInt8), st.size + data.length < size → FitsFrom size st data
  | _, [], _ => trivial
  | st, c :: data, h => by
    have hstep : (st.next c).size ≤ st.size + 1 := by
      have hs : (LexState.start c).size ≤ 1 := by
        unfold LexState.start
        (repeat' split) <;> simp only [LexState.size] <;> omega
      cases st with
      | between => exact Nat.le_trans hs (by omega)
      | string esc n => cases esc <;> simp only [LexState.next] <;> (repeat' split) <;> simp only [LexState.size] <;> omega
      | number n => simp only [LexState.next]; split <;> simp only [LexState.size] at * <;> omega
      | word n => simp only [LexState.next]; split <;> simp only [LexState.size] <;> omega
    rw [List.length_cons] at h
    exact ⟨by omega, fitsFrom_long _ data (by omega)⟩

/-- A document of version 1: the same, whatever is in the pooled memory. -/
theorem C78_document_v1 {l : List Json} {vs : List SpanV1} {w t x y : Str} (hw : Blank w) (ht : Writes PlainNumber (.array l) t) (hd : Pairwise₂ (SpanV1Of PlainString) l vs)
    (hx : w ++ t = x ++ y) (hy : y ≠ []) : RejectsV1 x := by
  refine (C90_v1_accepts x).2 fun hbody => ?_
  obtain ⟨after, h1⟩ := (C90_v1_accepts x).1 hbody (poolMemory [])
  obtain ⟨spans, pool', _, h2, _⟩ := C90_v1 (fun _ n => n) x [] h1
  have hfit : TokensFit (List.replicate (x.length + 1) (0 : UInt8)).length x := by
    rw [List.length_replicate]
    exact fitsFrom_long _ _ (by simp only [LexState.size]; omega)
  have h3 := h2 { data := x, script := [], failing := false, idle := false } (List.replicate (x.length + 1) 0) rfl hfit (by simp)
  obtain ⟨pool'', h4⟩ := document_v1_clean (fun _ n => n) (pool := []) (by intro a ha; cases ha) hw ht hd hx hy
    (r := { data := x, script := [], failing := false, idle := false }) rfl hfit (by simp)
  cases Returns.unique h3 h4

/-- A document sent to the Jaeger endpoint: the same, whatever the document is. -/
theorem C78_document_jaeger {floatFails : Str → Bool} {j : Json} {w t x y : Str} (hw : Blank w) (ht : Writes JsonNumber j t) (hn : Nesting 10000 j) (hx : w ++ t = x ++ y) (hy : y ≠ []) :
    RejectsJaeger floatFails x := by
  have hn : Nesting maxNestingDepth j := hn
  refine rejectsJaeger ?_
  cases hd : goDecodeJaeger floatFails x with
  | none => rfl
  | some l =>
    exfalso
    obtain ⟨w', t', q', e, h'⟩ := jaeger_accepted hd
    obtain ⟨v', hv'⟩ := h'.scans
    have h1 := hv' (q' ++ y)
    have e2 : w' ++ (t' ++ (q' ++ y)) = w ++ (t ++ []) := by
      rw [List.append_nil, hx, e]; simp
    rw [e2, skipSpace_blank hw, skipSpace_writes ht, scanValue_writes ht _ _ [] (by simp; omega) hn (fun _ _ c hc => by cases hc)] at h1
    simp only [Option.some.injEq, Prod.mk.injEq] at h1
    have := h1.2.symm
    rw [List.append_eq_nil_iff] at this
    exact hy this.2

/-- A request of which the end is missing: the document of `C26_witness`, which is accepted, without its last byte, and without all but its first. -/
theorem C78_witness :
    let data := b!" [ {\"id\":\"2\",\"x\":[1],\"name\":\"get\",\"timestamp\":1700,\"tags\":{\"k\":\"v\"},\"kind\":\"CLIENT\",\"traceId\":\"1F\",\"localEndpoint\":{\"serviceName\":\"web\"}} ,{}]"
    (∃ spans, spans.length = 2 ∧ ParsesV2 data spans) ∧ RejectsV2 (data.dropLast) ∧ RejectsV2 (data.take 60) := by
  obtain ⟨l, v, w, t, e, hw, ht, hd, _⟩ := C26_witness
  dsimp only
  rw [e]
  refine ⟨⟨_, ?_, parsesV2 readable_plain hw ht hd⟩, ?_, ?_⟩
  · rfl
  · rw [← e]
    exact C78_document_v2 hw ht hd (y := [c!"]"]) (by rw [← List.append_nil t, ← e]; decide) (by simp)
  · rw [← e]
    exact C78_document_v2 hw ht hd (y := List.drop 60 _) (by rw [← List.append_nil t, ← e, List.take_append_drop]) (by decide)

end Verif
