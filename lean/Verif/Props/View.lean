import Verif.Proofs.View
import Verif.Proofs.Ring

/-!
# C87: the admin view shows the spans
-/

namespace Verif

open Spec

/-- C87: the page with the last spans is a JSON document, an array with one object for each span. Ids are 16 digits, times are dates that denote them exactly, the duration is
a number, tags and timings are there exactly if they are known. Strings are shown in UTF-8, with the replacement character for bytes that do not belong to a character. -/
theorem C87_view (zone : Int → Int) (hz : MinuteZone zone) (l : List Span) (hne : l ≠ []) :
    ∃ text js, encodeView zone l = some text ∧ Writes JsonNumber (.array js) text ∧ Pairwise₂ (ViewOf ShownAs) l js := by
  obtain ⟨t, js, e, w, v⟩ := encodeElements_spec hz l hne
  refine ⟨c!"[" :: (t ++ b!"]"), js, ?_, .array w, v⟩
  unfold encodeView
  rw [if_neg hne, e]
  rfl

/-- C87: the page can be shown in a browser as it is: it has no characters that have a meaning in HTML. -/
theorem C87_html (zone : Int → Int) (hz : MinuteZone zone) (l : List Span) {text : Str} (h : encodeView zone l = some text) :
    c!"<" ∉ text ∧ c!">" ∉ text ∧ c!"&" ∉ text :=
  ⟨fun hm => (encodeView_markup hz l h _ hm).1 rfl, fun hm => (encodeView_markup hz l h _ hm).2.1 rfl, fun hm => (encodeView_markup hz l h _ hm).2.2 rfl⟩

theorem tagsView_text {tags : TagMap} {ms : List (Str × Json)} (h : TagsView ShownAs tags ms) (ht : ∀ k v, tags[k]? = some v → Utf8Text k ∧ Utf8Text v) :
    TagsView Utf8String tags ms := by
  rcases h with h | ⟨l, pairs, h1, h2, h3, h4, h5⟩
  · exact .inl h
  · refine .inr ⟨l, pairs, h1, h2, ?_, h4, h5⟩
    have hp : ∀ p ∈ pairs, Utf8Text p.1 ∧ Utf8Text p.2 := fun p hp => ht p.1 p.2 ((h5 p.1 p.2).mp hp)
    clear h1 h2 h4 h5
    induction h3 with
    | nil => exact .nil
    | cons h _ ih =>
      obtain ⟨g1, g2⟩ := hp _ List.mem_cons_self
      obtain ⟨a, lit, b, c⟩ := h
      exact .cons ⟨shown_text a g1, lit, b, shown_text c g2⟩ (ih fun p hp' => hp p (by simp [hp']))

theorem viewOf_text {s : Span} {j : Json} (h : ViewOf ShownAs s j) (ht : TextSpan s) : ViewOf Utf8String s j := by
  obtain ⟨h1, h2, h3, h4, h5, h6, h7, h8, h9⟩ := h
  exact .mk h1 h2 h3 (shown_text h4 ht.1) (shown_text h5 ht.2.1) h6 h7 (tagsView_text h8 ht.2.2) h9

/-- C87: the strings of spans in UTF-8 are shown as they are. Missing: strings that are not UTF-8, and a buffer without spans. -/
theorem C87_partial (zone : Int → Int) (hz : MinuteZone zone) (l : List Span) (hne : l ≠ []) (ht : ∀ s ∈ l, TextSpan s) :
    ∃ text js, encodeView zone l = some text ∧ Writes JsonNumber (.array js) text ∧ Pairwise₂ (ViewOf Utf8String) l js := by
  obtain ⟨text, js, e, w, v⟩ := C87_view zone hz l hne
  refine ⟨text, js, e, w, ?_⟩
  clear e w hne
  induction v with
  | nil => exact .nil
  | cons h _ ih => exact .cons (viewOf_text h (ht _ (by simp))) (ih fun s hs => ht s (by simp [hs]))

theorem utf8_ne_nil (r : Nat) : utf8 r ≠ [] := by
  unfold utf8
  split
  · simp
  split
  · simp
  split <;> simp

theorem replaced_nil {v : Str} (h : Replaced [] v) : v = [] := by
  generalize hs : ([] : Str) = s at h
  cases h with
  | nil => rfl
  | char hr h => exact absurd (List.append_eq_nil_iff.mp hs.symm).1 (utf8_ne_nil _)
  | bad hb h => cases hs

theorem replaced_ff {v : Str} (h : Replaced [0xFF] v) : v = utf8 0xFFFD := by
  have hno : ∀ r s, Scalar r → [0xFF] ≠ utf8 r ++ s := by
    intro r s hr e
    have := decodeRune_utf8 hr.1 hr.2 s
    rw [← e] at this
    have h2 : decodeRune [0xFF] = (0xFFFD, 1) := by decide
    rw [h2] at this
    have h3 : r = 0xFFFD := (congrArg Prod.fst this).symm
    subst h3
    exact absurd (congrArg Prod.snd this) (by decide)
  generalize hs : ([0xFF] : Str) = s at h
  cases h with
  | nil => cases hs
  | char hr h => exact absurd hs (hno _ _ hr)
  | bad hb h =>
    cases hs
    rw [replaced_nil h, List.append_nil]

/-- C87 fails for other strings: what is shown of a span with the name of the one byte 0xFF is what is right for a span with another name. Without spans the page is not an
array. And the document is not in the format of Zipkin, as its description says: no member is called `traceId`. -/
theorem C87_fails (zone : Int → Int) (hz : MinuteZone zone) :
    (∃ s s' : Span, ∃ text j, s.name ≠ s'.name ∧ encodeView zone [s] = some text ∧ Writes JsonNumber (.array [j]) text ∧ ViewOf Utf8String s' j) ∧
    (∀ capacity, adminView zone (Ring.new capacity) = some b!"null") ∧
    ∀ S s ms, ViewOf S s (.object ms) → b!"traceId" ∉ ms.map Prod.fst := by
  refine ⟨⟨{ name := [0xFF] }, { name := utf8 0xFFFD }, ?_⟩, ?_, ?_⟩
  · obtain ⟨text, js, e, w, v⟩ := C87_view zone hz [{ name := [0xFF] }] (by simp)
    cases v with
    | cons h h' =>
      cases h'
      refine ⟨text, _, by decide, e, w, ?_⟩
      obtain ⟨h1, h2, h3, ⟨v, h4, h4'⟩, h5, h6, h7, h8, h9⟩ := h
      rw [replaced_ff h4'] at h4
      refine .mk h1 h2 h3 h4 (shown_text h5 ⟨[], by simp, rfl⟩) h6 h7 (tagsView_text h8 ?_) h9
      intro k v h
      simp at h
  · intro capacity
    have h : (Ring.new capacity).toSlice = [] := by
      rw [toSlice_eq, List.filter_eq_nil_iff]
      intro s hs
      unfold Ring.new at hs
      rw [(List.mem_replicate.mp hs).2]
      decide
    unfold adminView encodeView
    rw [if_pos h]
  · intro S s ms h
    cases h with
    | @mk _ _ _ _ _ _ _ tags _ h1 h2 h3 h4 h5 h6 h7 h8 h9 =>
      have ht : ∀ n ∈ tags.map Prod.fst, n = b!"tags" := by
        rcases h8 with ⟨rfl, _⟩ | ⟨l, pairs, rfl, _⟩ <;> simp
      intro hm
      rw [List.map_append, List.map_append] at hm
      rcases List.mem_append.mp hm with hm | hm
      · exact absurd hm (by simp)
      · rcases List.mem_append.mp hm with hm | hm
        · exact absurd (ht _ hm) (by decide)
        · exact absurd hm (by simp)

/-- UTC. -/
theorem utc_minutes : MinuteZone fun _ => 0 := fun _ => ⟨0, rfl, by omega, by omega⟩

/-- A zone with summer time. -/
example : MinuteZone fun t => if t % 2 = 0 then 3600 else 7200 := by
  intro t
  by_cases h : t % 2 = 0
  · exact ⟨60, by simp [h], by omega, by omega⟩
  · exact ⟨120, by simp [h], by omega, by omega⟩

/-- A span with characters that are escaped, a tag and a time. -/
def shownSpan : Span :=
  { id := -1, parent := 1, trace := 1, name := [c!"a", c!"<", 0x0A, 0xC3, 0xA9, 0xE2, 0x80, 0xA8], service := b!"s", timestamp := 1500000000,
    duration := -120, tags := some ((∅ : TagMap).insert b!"k" b!"\""), timings := { CS := 1 } }

example : TextSpan shownSpan := by
  refine ⟨⟨[0x61, 0x3C, 0x0A, 0xE9, 0x2028], by decide, by decide⟩, ⟨[0x73], by decide, by decide⟩, ?_⟩
  intro k v h
  have h : ((∅ : TagMap).insert b!"k" b!"\"")[k]? = some v := h
  rw [Std.ExtTreeMap.getElem?_insert] at h
  split at h
  · next he =>
    have he : k = b!"k" := (Std.LawfulEqCmp.eq_of_compare he).symm
    have hv : v = b!"\"" := by simpa using h.symm
    rw [he, hv]
    exact ⟨⟨[0x6B], by decide, by decide⟩, ⟨[0x22], by decide, by decide⟩⟩
  · simp at h

example : encodeText shownSpan.name = b!"\"a\\u003c\\n" ++ [0xC3, 0xA9] ++ b!"\\u2028\"" := by decide +kernel

example : encodeTimings (fun _ => 7200) shownSpan.timings = some b!"{\"cs\":\"1970-01-01T02:00:00.000000001+02:00\"}" := by decide +kernel

example : encodeNumber shownSpan.duration = b!"-120" := by decide +kernel

end Verif
