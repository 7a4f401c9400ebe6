import Verif.Proofs.JaegerFields

/-!
# Storing maps and the objects of the jaeger format
-/

namespace Verif

open Spec

/-! ## Maps -/

/-- As `Processes`, for any values. -/
def MapIs {α : Type} (E : List Json → α → Prop) (l : List Json) (procs : Std.ExtTreeMap Str α) : Prop :=
  (∀ j ∈ l, IsNull j ∨ ∃ ms, j = .object ms ∧ ∀ m ∈ ms, ∃ s, E [m.2] s) ∧
  ∃ nms, Named GoString (currentMembers l) nms ∧ ∀ key s, procs[key]? = some s ↔ ∃ a j b, nms = a ++ (key, j) :: b ∧ (∀ m ∈ b, m.1 ≠ key) ∧ E [j] s

section

variable {α : Type} {S : Raw → α → Option α} {zero : α} {E : List Json → α → Prop}

theorem fold_entries {ms nms : List (Str × Json)} (hl : ∀ m ∈ ms, LiteralText m.1) (h : Named GoString ms nms) (a : Std.ExtTreeMap Str α) :
    (rawMembers ms).foldlM (fun (acc : Std.ExtTreeMap Str α) (m : Str × Raw) => do
      let key ← goUnquote m.1
      let a ← S m.2 zero
      some (acc.insert key a)) a = nms.foldlM (storeEntry S zero) a := by
  induction h generalizing a with
  | nil => rfl
  | @cons m n ms nms hmn _ ih =>
    obtain ⟨lit, j⟩ := m
    obtain ⟨nm, j'⟩ := n
    obtain ⟨h1, rfl⟩ := hmn
    rw [rawMembers, List.foldlM_cons, List.foldlM_cons, (goUnquote_iff (hl (lit, j) (by simp))).mpr h1]
    unfold storeEntry
    cases hS : S (rawOf j) zero with
    | none => simp [hS]
    | some x =>
      simp only [hS, Option.bind_eq_bind, Option.bind_some, Option.map_some]
      exact ih (fun m hm => hl m (by simp [hm])) _

theorem named_unique {ms nms nms' : List (Str × Json)} (hl : ∀ m ∈ ms, LiteralText m.1) (h : Named GoString ms nms) (h' : Named GoString ms nms') : nms = nms' := by
  induction h generalizing nms' with
  | nil => cases h'; rfl
  | @cons m n ms nms hmn _ ih =>
    cases h' with
    | @cons _ n' _ _ hmn' h' =>
      have e := ih (fun m hm => hl m (by simp [hm])) h'
      have h1 := (goUnquote_iff (hl m (by simp))).mpr hmn.1
      rw [(goUnquote_iff (hl m (by simp))).mpr hmn'.1] at h1
      rw [e, Prod.ext (x := n) (y := n') (Option.some.inj h1).symm (hmn.2.symm.trans hmn'.2)]

theorem mapEntries_each {nms : List (Str × Json)} : ∀ {m m' : Std.ExtTreeMap Str α}, nms.foldlM (storeEntry S zero) m = some m' → ∀ x ∈ nms, (S (rawOf x.2) zero).isSome = true := by
  induction nms with
  | nil => simp
  | cons p nms ih =>
    intro m m' h x hx
    rw [List.foldlM_cons] at h
    obtain ⟨m1, h1, h⟩ := Option.bind_eq_some_iff.mp h
    rcases List.mem_cons.mp hx with rfl | hx
    · obtain ⟨v, hv, rfl⟩ := Option.map_eq_some_iff.mp h1
      rw [hv]; rfl
    · exact ih h x hx

theorem mapEntries_some {nms : List (Str × Json)} (h : ∀ x ∈ nms, (S (rawOf x.2) zero).isSome = true) : ∀ m : Std.ExtTreeMap Str α, ∃ m', nms.foldlM (storeEntry S zero) m = some m' := by
  induction nms with
  | nil => exact fun m => ⟨m, rfl⟩
  | cons p nms ih =>
    intro m
    obtain ⟨v, hv⟩ := Option.isSome_iff_exists.mp (h p (by simp))
    obtain ⟨m', hm'⟩ := ih (fun x hx => h x (by simp [hx])) (m.insert p.1 v)
    refine ⟨m', ?_⟩
    rw [List.foldlM_cons, storeEntry, hv]
    exact hm'

theorem named_mem {R : Str → Str → Prop} {ms nms : List (Str × Json)} (h : Named R ms nms) : (∀ x ∈ nms, ∃ m ∈ ms, m.2 = x.2) ∧ ∀ m ∈ ms, ∃ x ∈ nms, m.2 = x.2 := by
  induction h with
  | nil => exact ⟨by simp, by simp⟩
  | @cons m n ms nms hmn _ ih =>
    refine ⟨fun x hx => ?_, fun x hx => ?_⟩
    · rcases List.mem_cons.mp hx with rfl | hx
      · exact ⟨m, by simp, hmn.2⟩
      · obtain ⟨y, hy, e⟩ := ih.1 x hx
        exact ⟨y, by simp [hy], e⟩
    · rcases List.mem_cons.mp hx with rfl | hx
      · exact ⟨n, by simp, hmn.2⟩
      · obtain ⟨y, hy, e⟩ := ih.2 x hx
        exact ⟨y, by simp [hy], e⟩

theorem map_object {j : Json} (hj : Fine j) {a : Option (Std.ExtTreeMap Str α)} (h : (storeMap S zero (rawOf j) a).isSome = true) : IsNull j ∨ ∃ ms, j = .object ms := by
  cases j with
  | object ms => exact .inr ⟨ms, rfl⟩
  | array l => cases h
  | word w =>
    refine .inl (Classical.byContradiction fun hn => ?_)
    simp only [rawOf, storeMap] at h
    rw [if_neg (not_null hn (by simp only [rawOf]) hj.isNumber)] at h
    cases h
  | number t =>
    simp only [rawOf, storeMap] at h
    rw [if_neg (not_null (j := .number t) (by simp) (by simp only [rawOf]) hj.isNumber)] at h
    cases h
  | string lit =>
    simp only [rawOf, storeMap] at h
    rw [if_neg (quoted_ne_null lit)] at h
    cases h

/-- When a value is stored as a map, and what the map is then. -/
theorem map_value (hr : ReadsAs S zero id E) {j : Json} (hj : Fine j) (old : Option (Std.ExtTreeMap Str α)) :
    (storeMap S zero (rawOf j) old).isSome = true ↔ IsNull j ∨ ∃ ms, j = .object ms ∧ ∀ m ∈ ms, ∃ s, E [m.2] s := by
  constructor
  · intro h
    rcases map_object hj h with hn | ⟨ms, rfl⟩
    · exact .inl hn
    · refine .inr ⟨ms, rfl, ?_⟩
      have hm : ∀ m ∈ ms, LiteralText m.1 ∧ Fine m.2 := members_fine hj
      obtain ⟨nms, hn⟩ := named_exists fun m h => (hm m h).1
      simp only [rawOf, storeMap] at h
      rw [fold_entries (fun m h => (hm m h).1) hn] at h
      obtain ⟨x, hx⟩ := Option.isSome_iff_exists.mp h
      obtain ⟨m', hm', _⟩ := Option.map_eq_some_iff.mp hx
      intro m hmem
      obtain ⟨y, hy, e⟩ := (named_mem hn).2 m hmem
      refine (hr.value (hm m hmem).2 (old := zero)).mp ?_
      rw [e]
      exact mapEntries_each hm' y hy
  · rintro (hn | ⟨ms, rfl, h⟩)
    · cases hn
      rfl
    · have hm : ∀ m ∈ ms, LiteralText m.1 ∧ Fine m.2 := members_fine hj
      obtain ⟨nms, hn⟩ := named_exists fun m h => (hm m h).1
      simp only [rawOf, storeMap]
      rw [fold_entries (fun m h => (hm m h).1) hn]
      obtain ⟨m', hm'⟩ := mapEntries_some (S := S) (zero := zero) (nms := nms) (fun x hx => by
        obtain ⟨m, hmem, e⟩ := (named_mem hn).1 x hx
        rw [← e]
        exact (hr.value (hm m hmem).2).mpr (h m hmem)) (old.getD ∅)
      rw [hm']
      rfl

theorem single_iff (hr : ReadsAs S zero id E) {j : Json} (hj : Fine j) (s : α) : S (rawOf j) zero = some s ↔ E [j] s := by
  have hf : ∀ k ∈ [j], Fine k := by simpa using hj
  rw [← storeAll_single S j zero]
  constructor
  · exact hr.sound [j] s hf
  · intro h
    obtain ⟨a, ha, rfl⟩ := hr.complete [j] s hf h
    exact ha

theorem currentMembers_fine {l : List Json} (h : ∀ j ∈ l, Fine j) : ∀ m ∈ currentMembers l, LiteralText m.1 ∧ Fine m.2 := by
  intro m hm
  obtain ⟨j, hj, hm⟩ := List.mem_flatMap.mp hm
  refine members_fine (h j ?_) m hm
  have := (List.takeWhile_prefix (p := fun j : Json => match j with | .object _ => true | _ => false) (l := l.reverse)).subset (List.mem_reverse.mp hj)
  exact List.mem_reverse.mp this

theorem map_all (hr : ReadsAs S zero id E) : ∀ (l : List Json) (x : Option (Std.ExtTreeMap Str α)), (∀ j ∈ l, Fine j) → storeAll (storeMap S zero) l none = some x →
    (∀ j ∈ l, IsNull j ∨ ∃ ms, j = .object ms ∧ ∀ m ∈ ms, ∃ s, E [m.2] s) ∧ ∃ nms, Named GoString (currentMembers l) nms ∧ nms.foldlM (storeEntry S zero) ∅ = some (x.getD ∅) := by
  refine snoc_induction ?_ ?_
  · intro x _ h
    cases h
    exact ⟨by simp, [], .nil, rfl⟩
  · intro l j ih x hl h
    rw [storeAll_snoc] at h
    obtain ⟨y, hy, h⟩ := Option.bind_eq_some_iff.mp h
    obtain ⟨h1, nms, h2, h3⟩ := ih y (fun k hk => hl k (by simp [hk])) hy
    have hj := hl j (by simp)
    have hv := (map_value hr hj y).mp (by rw [h]; rfl)
    refine ⟨fun k hk => ?_, ?_⟩
    · rcases List.mem_append.mp hk with hk | hk
      · exact h1 k hk
      · rw [List.mem_singleton.mp hk]; exact hv
    · rw [currentMembers_snoc]
      rcases hv with hn | ⟨ms, rfl, hv⟩
      · cases hn
        cases h
        exact ⟨[], .nil, rfl⟩
      · have hms : ∀ m ∈ ms, LiteralText m.1 ∧ Fine m.2 := members_fine hj
        obtain ⟨nms', hn'⟩ := named_exists fun m hm => (hms m hm).1
        simp only [rawOf, storeMap] at h
        rw [fold_entries (fun m hm => (hms m hm).1) hn'] at h
        obtain ⟨m', hm', rfl⟩ := Option.map_eq_some_iff.mp h
        refine ⟨nms ++ nms', named_append h2 hn', ?_⟩
        rw [List.foldlM_append, h3]
        exact hm'

theorem readsAs_map (hr : ReadsAs S zero id E) : ReadsAs (storeMap S zero) none (fun m => m.getD ∅) (MapIs E) := by
  have hget : ∀ (l : List Json) (x : Option (Std.ExtTreeMap Str α)) (nms : List (Str × Json)), (∀ j ∈ l, Fine j) → Named GoString (currentMembers l) nms →
      nms.foldlM (storeEntry S zero) ∅ = some (x.getD ∅) → ∀ key s, (x.getD ∅)[key]? = some s ↔ ∃ a j b, nms = a ++ (key, j) :: b ∧ (∀ m ∈ b, m.1 ≠ key) ∧ E [j] s := by
    intro l x nms hl hn hf key s
    rw [mapEntries_get hf key s]
    have hj : ∀ {a b : List (Str × Json)} {j : Json}, nms = a ++ (key, j) :: b → Fine j := by
      intro a b j e
      obtain ⟨m, hm, e'⟩ := (named_mem hn).1 (key, j) (by rw [e]; simp)
      rw [show j = m.2 from e'.symm]
      exact (currentMembers_fine hl m hm).2
    constructor
    · rintro (⟨a, j, b, e, h1, h2⟩ | ⟨_, h⟩)
      · exact ⟨a, j, b, e, h1, (single_iff hr (hj e) s).mp h2⟩
      · simp at h
    · rintro ⟨a, j, b, e, h1, h2⟩
      exact .inl ⟨a, j, b, e, h1, (single_iff hr (hj e) s).mpr h2⟩
  refine ⟨fun l x hl h => ?_, fun l procs hl h => ?_, fun j old old' hj h => ?_⟩
  · obtain ⟨h1, nms, h2, h3⟩ := map_all hr l x hl h
    exact ⟨h1, nms, h2, hget l x nms hl h2 h3⟩
  · obtain ⟨h1, nms, h2, h3⟩ := h
    obtain ⟨x, hx⟩ := storeAll_some (S := storeMap S zero) (l := l) (fun j hj old => (map_value hr (hl j hj) old).mpr (h1 j hj)) none
    refine ⟨x, hx, ?_⟩
    obtain ⟨_, nms', h2', h3'⟩ := map_all hr l x hl hx
    cases named_unique (fun m hm => (currentMembers_fine hl m hm).1) h2 h2'
    refine Std.ExtTreeMap.ext_getElem? fun key => ?_
    refine Option.ext fun s => ?_
    rw [hget l x nms hl h2 h3' key s, h3 key s]
  · exact (map_value hr hj old').mpr ((map_value hr hj old).mp h)

end

/-! ## The format -/

theorem ReadsAs.congr {α β : Type} {S : Raw → α → Option α} {zero : α} {view : α → β} {E E' : List Json → β → Prop} (h : ReadsAs S zero view E) (he : ∀ l b, E l b ↔ E' l b) : ReadsAs S zero view E' := by
  have : E = E' := by funext l b; exact propext (he l b)
  rw [← this]; exact h

theorem fld_unique {α β : Type} {fs : List (Fld α β)} {names : List Str} (e : fs.map (·.name) = names) (h : names.Nodup) : ∀ f ∈ fs, ∀ g ∈ fs, f.name = g.name → f = g := by
  subst e
  induction fs with
  | nil => simp
  | cons a fs ih =>
    rw [List.map_cons, List.nodup_cons] at h
    intro f hf g hg e
    rcases List.mem_cons.mp hf with hf' | hf'
    · rcases List.mem_cons.mp hg with hg' | hg'
      · rw [hf', hg']
      · exact absurd (List.mem_map.mpr ⟨g, hg', by rw [← e, hf']⟩) h.1
    · rcases List.mem_cons.mp hg with hg' | hg'
      · exact absurd (List.mem_map.mpr ⟨f, hf', by rw [e, hg']⟩) h.1
      · exact ih h.2 f hf' g hg' e

def referenceFlds : List (Fld (Str × Id) (Str × Id)) := [
  { name := b!"refType", γ := Str, δ := Str, store := storeString, get := (·.1), set := fun r x => (x, r.2), view := id, part := (·.1), E := Texts },
  { name := b!"spanID", γ := Id, δ := Id, store := storeId, get := (·.2), set := fun r x => (r.1, x), view := id, part := (·.2), E := Ids }]

theorem readsAs_reference : ReadsAs storeReference ([], 0) id References := by
  refine (readsAs_struct (fs := referenceFlds) (zero := ([], 0)) (view := id) ⟨?_, ?_, ?_, ?_, ?_, ?_⟩).congr fun l b => ?_
  · simp [referenceFlds]
  · simp [referenceFlds]
  · exact fld_unique (names := referenceFields) rfl (by decide)
  · simp [referenceFlds]
  · simp only [referenceFlds, List.mem_cons, List.not_mem_nil, or_false, forall_eq_or_imp, forall_eq]
    exact fun b b' h => Prod.ext h.1 h.2
  · simp only [referenceFlds, List.mem_cons, List.not_mem_nil, or_false, forall_eq_or_imp, forall_eq]
    exact ⟨readsAs_text, readsAs_id⟩
  · unfold StructIs References
    simp only [referenceFlds, List.mem_cons, List.not_mem_nil, or_false, forall_eq_or_imp, forall_eq]
    rfl

def tagFlds (floatFails : Str → Bool) : List (Fld (Str × JaegerValue) (Str × JaegerValue)) := [
  { name := b!"key", γ := Str, δ := Str, store := storeString, get := (·.1), set := fun r x => (x, r.2), view := id, part := (·.1), E := Texts },
  { name := b!"value", γ := JaegerValue, δ := JaegerValue, store := storeAny floatFails, get := (·.2), set := fun r x => (r.1, x), view := id, part := (·.2),
    E := LastOf (AnyValueOf (GoNumber floatFails)) (fun _ => False) .other }]

theorem readsAs_tag (floatFails : Str → Bool) : ReadsAs (storeTag floatFails) ([], .other) id (JaegerTags (GoNumber floatFails)) := by
  refine (readsAs_struct (fs := tagFlds floatFails) (zero := ([], .other)) (view := id) ⟨?_, ?_, ?_, ?_, ?_, ?_⟩).congr fun l b => ?_
  · simp [tagFlds]
  · simp [tagFlds]
  · exact fld_unique (names := tagFields) rfl (by decide)
  · simp [tagFlds]
  · simp only [tagFlds, List.mem_cons, List.not_mem_nil, or_false, forall_eq_or_imp, forall_eq]
    exact fun b b' h => Prod.ext h.1 h.2
  · simp only [tagFlds, List.mem_cons, List.not_mem_nil, or_false, forall_eq_or_imp, forall_eq]
    exact ⟨readsAs_text, readsAs_any floatFails⟩
  · unfold StructIs JaegerTags
    simp only [tagFlds, List.mem_cons, List.not_mem_nil, or_false, forall_eq_or_imp, forall_eq]
    rfl

theorem readsAs_elems {α : Type} {S : Raw → α → Option α} {zero : α} {E : List Json → α → Prop} (h : ReadsAs S zero id E) : ReadsAs (storeSlice S zero) {} (fun s => s.elems) (Arrays E) := by
  have := readsAs_slice h
  simpa only [List.map_id] using this

def spanFlds (floatFails : Str → Bool) : List (Fld JaegerCell JaegerSpan) := [
  { name := b!"traceID", γ := Id, δ := Id, store := storeId, get := (·.traceId), set := fun r x => { r with traceId := x }, view := id, part := (·.traceId), E := Ids },
  { name := b!"spanID", γ := Id, δ := Id, store := storeId, get := (·.spanId), set := fun r x => { r with spanId := x }, view := id, part := (·.spanId), E := Ids },
  { name := b!"operationName", γ := Str, δ := Str, store := storeString, get := (·.operationName), set := fun r x => { r with operationName := x }, view := id, part := (·.operationName), E := Texts },
  { name := b!"references", γ := JsonSlice (Str × Id), δ := List (Str × Id), store := storeSlice storeReference ([], 0), get := (·.references), set := fun r x => { r with references := x },
    view := fun s => s.elems, part := (·.references), E := Arrays References },
  { name := b!"startTime", γ := UInt64, δ := UInt64, store := storeUint, get := (·.timestamp), set := fun r x => { r with timestamp := x }, view := id, part := (·.timestamp), E := Counts },
  { name := b!"duration", γ := UInt64, δ := UInt64, store := storeUint, get := (·.duration), set := fun r x => { r with duration := x }, view := id, part := (·.duration), E := Counts },
  { name := b!"processID", γ := Str, δ := Str, store := storeString, get := (·.processId), set := fun r x => { r with processId := x }, view := id, part := (·.processId), E := Texts },
  { name := b!"tags", γ := JsonSlice (Str × JaegerValue), δ := List (Str × JaegerValue), store := storeSlice (storeTag floatFails) ([], .other), get := (·.tags), set := fun r x => { r with tags := x },
    view := fun s => s.elems, part := (·.tags), E := Arrays (JaegerTags (GoNumber floatFails)) }]

theorem readsAs_span (floatFails : Str → Bool) : ReadsAs (storeSpan floatFails) {} JaegerCell.toSpan (JaegerSpans (GoNumber floatFails)) := by
  refine (readsAs_struct (fs := spanFlds floatFails) (zero := {}) (view := JaegerCell.toSpan) ⟨?_, ?_, ?_, ?_, ?_, ?_⟩).congr fun l b => ?_
  · simp [spanFlds]
  · simp only [spanFlds, List.mem_cons, List.not_mem_nil, or_false]
    rintro f (rfl | rfl | rfl | rfl | rfl | rfl | rfl | rfl) g (rfl | rfl | rfl | rfl | rfl | rfl | rfl | rfl) h r x <;> first | rfl | exact absurd rfl h
  · exact fld_unique (names := spanFields) rfl (by decide)
  · simp [spanFlds, JaegerCell.toSpan]
  · simp only [spanFlds, List.mem_cons, List.not_mem_nil, or_false, forall_eq_or_imp, forall_eq]
    rintro ⟨⟩ ⟨⟩ ⟨h1, h2, h3, h4, h5, h6, h7, h8⟩
    cases h1; cases h2; cases h3; cases h4; cases h5; cases h6; cases h7; cases h8
    rfl
  · simp only [spanFlds, List.mem_cons, List.not_mem_nil, or_false, forall_eq_or_imp, forall_eq]
    exact ⟨readsAs_id, readsAs_id, readsAs_text, readsAs_elems readsAs_reference, readsAs_count, readsAs_count, readsAs_text, readsAs_elems (readsAs_tag floatFails)⟩
  · unfold StructIs JaegerSpans
    simp only [spanFlds, List.mem_cons, List.not_mem_nil, or_false, forall_eq_or_imp, forall_eq]
    rfl

def processFlds : List (Fld Str Str) := [
  { name := b!"serviceName", γ := Str, δ := Str, store := storeString, get := id, set := fun _ x => x, view := id, part := id, E := Texts }]

theorem readsAs_process : ReadsAs storeProcess [] id Process := by
  have e : storeProcess = storeStruct (processFlds.map Fld.entry) := by
    unfold storeProcess processFlds Fld.entry
    congr 1
    simp only [List.map_cons, List.map_nil, List.cons.injEq, Prod.mk.injEq, and_true, true_and]
    funext v r
    show storeString v r = (storeString v r).map fun x => x
    cases storeString v r <;> rfl
  rw [e]
  refine (readsAs_struct (fs := processFlds) (zero := []) (view := id) ⟨?_, ?_, ?_, ?_, ?_, ?_⟩).congr fun l b => ?_
  · simp [processFlds]
  · simp [processFlds]
  · simp [processFlds]
  · simp [processFlds]
  · simp [processFlds]
  · simp only [processFlds, List.mem_cons, List.not_mem_nil, or_false, forall_eq]
    exact readsAs_text
  · unfold StructIs Process
    simp only [processFlds, List.mem_cons, List.not_mem_nil, or_false, forall_eq]
    rfl

def dataFlds (floatFails : Str → Bool) : List (Fld JaegerDataCell JaegerData) := [
  { name := b!"spans", γ := JsonSlice JaegerCell, δ := List JaegerSpan, store := storeSlice (storeSpan floatFails) {}, get := (·.spans), set := fun r x => { r with spans := x },
    view := fun s => s.elems.map JaegerCell.toSpan, part := (·.spans), E := Arrays (JaegerSpans (GoNumber floatFails)) },
  { name := b!"processes", γ := Option TagMap, δ := TagMap, store := storeMap storeProcess [], get := (·.processes), set := fun r x => { r with processes := x },
    view := fun m => m.getD ∅, part := (·.processes), E := Processes }]

theorem readsAs_data (floatFails : Str → Bool) : ReadsAs (storeData floatFails) {} JaegerDataCell.toData (JaegerDatas (GoNumber floatFails)) := by
  refine (readsAs_struct (fs := dataFlds floatFails) (zero := {}) (view := JaegerDataCell.toData) ⟨?_, ?_, ?_, ?_, ?_, ?_⟩).congr fun l b => ?_
  · simp [dataFlds]
  · simp [dataFlds]
  · exact fld_unique (names := dataFields) rfl (by decide)
  · simp [dataFlds, JaegerDataCell.toData]
  · simp only [dataFlds, List.mem_cons, List.not_mem_nil, or_false, forall_eq_or_imp, forall_eq]
    rintro ⟨⟩ ⟨⟩ ⟨h1, h2⟩
    cases h1; cases h2
    rfl
  · simp only [dataFlds, List.mem_cons, List.not_mem_nil, or_false, forall_eq_or_imp, forall_eq]
    exact ⟨readsAs_slice (readsAs_span floatFails), readsAs_map readsAs_process⟩
  · unfold StructIs JaegerDatas
    simp only [dataFlds, List.mem_cons, List.not_mem_nil, or_false, forall_eq_or_imp, forall_eq]
    rfl

def requestFlds (floatFails : Str → Bool) : List (Fld (JsonSlice JaegerDataCell) (List JaegerData)) := [
  { name := b!"data", γ := JsonSlice JaegerDataCell, δ := List JaegerData, store := storeSlice (storeData floatFails) {}, get := id, set := fun _ x => x,
    view := fun s => s.elems.map JaegerDataCell.toData, part := id, E := Arrays (JaegerDatas (GoNumber floatFails)) }]

theorem readsAs_request (floatFails : Str → Bool) :
    ReadsAs (storeObject floatFails) {} (fun s => s.elems.map JaegerDataCell.toData) (fun l b => ∃ nms, Objects l nms ∧ FieldIs requestFields nms b!"data" (Arrays (JaegerDatas (GoNumber floatFails))) b) := by
  have e : storeObject floatFails = storeStruct ((requestFlds floatFails).map Fld.entry) := by
    unfold storeObject requestFlds Fld.entry
    congr 1
    simp only [List.map_cons, List.map_nil, List.cons.injEq, Prod.mk.injEq, and_true, true_and]
    funext v r
    show storeSlice (storeData floatFails) {} v r = (storeSlice (storeData floatFails) {} v r).map fun x => x
    cases storeSlice (storeData floatFails) {} v r <;> rfl
  rw [e]
  refine (readsAs_struct (fs := requestFlds floatFails) (zero := {}) (view := fun s => s.elems.map JaegerDataCell.toData) ⟨?_, ?_, ?_, ?_, ?_, ?_⟩).congr fun l b => ?_
  · simp [requestFlds]
  · simp [requestFlds]
  · simp [requestFlds]
  · simp [requestFlds]
  · simp [requestFlds]
  · simp only [requestFlds, List.mem_cons, List.not_mem_nil, or_false, forall_eq]
    exact readsAs_slice (readsAs_data floatFails)
  · unfold StructIs
    simp only [requestFlds, List.mem_cons, List.not_mem_nil, or_false, forall_eq]
    rfl

end Verif
