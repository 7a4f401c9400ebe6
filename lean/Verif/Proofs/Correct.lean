import Verif.Proofs.Tree
import Verif.Spec.Correct

namespace Verif

open Spec

/-! ## One node -/

theorem toMillis_lt_2020 (t : Timestamp) : toMillis t < year2020Millis ↔ t < year2020 := by
  unfold toMillis
  rw [Int64.lt_iff_toInt_lt, Int64.lt_iff_toInt_lt, Int64.toInt_div_of_ne_right _ _ (by decide)]
  have h1 : millisecond.toInt = 1000000 := rfl
  have h2 : year2020Millis.toInt = 1577836800000 := rfl
  have h3 : year2020.toInt = 1577836800000000000 := rfl
  rw [h1, h2, h3]
  rcases Int.lt_or_le t.toInt 0 with hneg | hpos
  · have : t.toInt.tdiv 1000000 ≤ 0 := by
      rw [Int.tdiv_eq_ediv]; simp only [show Int.sign 1000000 = 1 from rfl]; split <;> omega
    omega
  · rw [Int.tdiv_eq_ediv_of_nonneg hpos]; omega

/-- The start of the nearest ancestor, if there is one. -/
def parentStart : List Span → Option Timestamp
  | [] => none
  | p :: anc => some (start anc p)

theorem correctNode_spec (anc : List Span) (n : Span) :
    correctNode n (parentStart anc) (shift anc) = (corrected anc n, shift (n :: anc)) := by
  have hall : (n.timings.CR ≠ 0 ∧ n.timings.CS ≠ 0 ∧ n.timings.SR ≠ 0 ∧ n.timings.SS ≠ 0) ↔ HasAllTimings n := by
    unfold HasAllTimings; grind
  have hoff : (if shift anc ≠ 0 then { n with timestamp := n.timestamp + shift anc } else n) =
      { n with timestamp := n.timestamp + shift anc } := by
    split
    · rfl
    · next h =>
      have h : shift anc = 0 := by simpa using h
      rw [h]; simp
  have hsh : shift (n :: anc) = shift anc + skew n := rfl
  rw [hsh]
  unfold correctNode
  simp only [hoff, hall]
  by_cases h : HasAllTimings n
  · have hsk : skew n = (n.timings.CR + n.timings.CS) / 2 - (n.timings.SR + n.timings.SS) / 2 := if_pos h
    have hst : shiftedStart anc n = n.timings.CS + shift anc := by unfold shiftedStart; rw [if_pos h]
    simp only [h, if_true, hsk, corrected]
    cases anc with
    | nil => simp only [parentStart, start, hst]
    | cons p anc =>
      simp only [parentStart, start, hst, toMillis_lt_2020]
      split <;> rfl
  · have hsk : skew n = 0 := if_neg h
    have hst : shiftedStart anc n = n.timestamp + shift anc := by unfold shiftedStart; rw [if_neg h]
    simp only [h, if_false, hsk, corrected, Int64.add_zero]
    cases anc with
    | nil => simp only [parentStart, start, hst]
    | cons p anc =>
      simp only [parentStart, start, hst, toMillis_lt_2020]
      split <;> rfl

/-! ## Paths -/

/-- Ids identify spans. -/
def UniqueIds (spans : List Span) : Prop := ∀ a ∈ spans, ∀ b ∈ spans, a.id = b.id → a = b

theorem SortedDesc.uniqueIds {l : List Span} (h : SortedDesc l) : UniqueIds l := by
  intro a ha b hb hab
  have h1 := (lookupSpan_eq_some h).mpr ⟨ha, rfl⟩
  have h2 := (lookupSpan_eq_some h).mpr ⟨hb, hab.symm⟩
  rw [h1] at h2; exact Option.some.inj h2

theorem Path.mem {spans r anc s} (h : Path spans r anc s) (hr : r ∈ spans) : s ∈ spans := by
  cases h with
  | root => exact hr
  | child _ hm _ _ => exact hm

theorem Path.anc_mem {spans r anc s} (h : Path spans r anc s) (hr : r ∈ spans) : ∀ a ∈ anc, a ∈ spans := by
  induction h with
  | root => simp
  | child hp _ _ _ ih =>
    intro a ha
    rcases List.mem_cons.mp ha with rfl | ha
    · exact Path.mem hp hr
    · exact ih a ha

/-- The path to a span is unique. -/
theorem Path.unique {spans r} (hu : UniqueIds spans) (hr : IsRootOf spans r) {l l' s}
    (h : Path spans r l s) (h' : Path spans r l' s) : l = l' := by
  have noloop : ∀ p l, Path spans r (p :: l) r → False := by
    intro p l hp
    cases hp with
    | child hp' hm hpar hne =>
      rcases hr.2 with h | h
      · exact hne h
      · exact h p (Path.mem hp' hr.1) hpar.symm
  induction h generalizing l' with
  | root =>
    cases l' with
    | nil => rfl
    | cons p l' => exact (noloop p l' h').elim
  | child hp hm hpar hne ih =>
    rename_i anc p c
    cases h' with
    | root => exact (noloop p anc (Path.child hp hm hpar hne)).elim
    | child hp' hm' hpar' hne' =>
      rename_i anc' p'
      have : p = p' := hu p (Path.mem hp hr.1) p' (Path.mem hp' hr.1) (hpar.symm.trans hpar')
      subst this
      rw [ih hp']

/-- The ancestors of an ancestor. -/
theorem Path.sub {spans r l s t x l'} (h : Path spans r l s) (he : s :: l = t ++ x :: l') :
    Path spans r l' x := by
  induction h generalizing t with
  | root =>
    cases t with
    | nil => cases he; exact Path.root
    | cons a t => simp at he
  | child hp hm hpar hne ih =>
    cases t with
    | nil => cases he; exact Path.child hp hm hpar hne
    | cons a t =>
      simp only [List.cons_append, List.cons.injEq] at he
      exact ih he.2

theorem Path.nodup {spans r} (hu : UniqueIds spans) (hr : IsRootOf spans r) {l s}
    (h : Path spans r l s) : (s :: l).Nodup := by
  induction h with
  | root => simp
  | child hp hm hpar hne ih =>
    rename_i anc p c
    rw [List.nodup_cons]
    refine ⟨?_, ih⟩
    intro hc
    obtain ⟨t, l', he⟩ := List.append_of_mem hc
    have h1 := Path.sub hp he
    have h2 := Path.unique hu hr h1 (Path.child hp hm hpar hne)
    have := congrArg List.length he
    rw [h2] at this
    simp at this; omega

theorem Path.length_lt {spans r} (hu : UniqueIds spans) (hr : IsRootOf spans r) {l s}
    (h : Path spans r l s) : l.length < spans.length := by
  have h1 := Path.nodup hu hr h
  have h2 : (s :: l) ⊆ spans := by
    intro a ha
    rcases List.mem_cons.mp ha with rfl | ha
    · exact Path.mem h hr.1
    · exact Path.anc_mem h hr.1 a ha
  have h3 := List.Nodup.length_le_of_subset h1 h2
  rw [List.length_cons] at h3; omega

/-! ## The recursion -/

/-- Same ids and parents everywhere. -/
def SameSkeleton (a b : List Span) : Prop :=
  a.map (fun s => (s.id, s.parent)) = b.map (fun s => (s.id, s.parent))

theorem SameSkeleton.get {a b : List Span} (h : SameSkeleton a b) (i : Nat) :
    (a[i]?).map (fun s => (s.id, s.parent)) = (b[i]?).map (fun s => (s.id, s.parent)) := by
  rw [← List.getElem?_map, ← List.getElem?_map, h]

theorem SameSkeleton.length {a b : List Span} (h : SameSkeleton a b) : a.length = b.length := by
  have := congrArg List.length h
  simpa using this

theorem SameSkeleton.children {a b : List Span} (h : SameSkeleton a b) (id : Id) :
    childrenOf a id = childrenOf b id := by
  unfold childrenOf
  rw [h.length]
  apply List.filter_congr
  intro i _
  have := h.get i
  revert this
  cases a[i]? <;> cases b[i]? <;> simp [Span.isRoot]
  grind

theorem SameSkeleton.set {a b : List Span} (h : SameSkeleton a b) {i : Nat} {s s' : Span}
    (hi : a[i]? = some s) (h1 : s'.id = s.id) (h2 : s'.parent = s.parent) : SameSkeleton (a.set i s') b := by
  unfold SameSkeleton at *
  rw [← h, List.map_set]
  apply List.ext_getElem?
  intro j
  rw [List.getElem?_set]
  split
  · next hij =>
    subst hij
    rw [List.getElem?_map, hi]
    have := (List.getElem?_eq_some_iff.mp hi).1
    simp [h1, h2, this]
  · rfl

theorem mem_childrenOf {l : List Span} {id : Id} {i : Nat} :
    i ∈ childrenOf l id ↔ ∃ s, l[i]? = some s ∧ s.parent = id ∧ s.parent ≠ s.id := by
  unfold childrenOf
  rw [List.mem_filter, List.mem_range]
  constructor
  · rintro ⟨hi, h⟩
    have hs : l[i]? = some l[i] := List.getElem?_eq_getElem hi
    rw [hs] at h
    simp only [Span.isRoot, Bool.and_eq_true, beq_iff_eq, Bool.not_eq_true', beq_eq_false_iff_ne] at h
    exact ⟨_, hs, h.1, h.2⟩
  · rintro ⟨s, hs, h1, h2⟩
    refine ⟨(List.getElem?_eq_some_iff.mp hs).1, ?_⟩
    rw [hs]
    simp only [Span.isRoot, Bool.and_eq_true, beq_iff_eq, Bool.not_eq_true', beq_eq_false_iff_ne]
    exact ⟨h1, h2⟩

theorem childrenOf_nodup (l : List Span) (id : Id) : (childrenOf l id).Nodup :=
  List.Pairwise.filter _ List.nodup_range

section
variable (orig : List Span) (r : Span)

/-- The spans below and including `n`, whose ancestors are `anc`. -/
def Below (n : Span) (anc : List Span) (j : Nat) : Prop :=
  ∃ s l, orig[j]? = some s ∧ Path orig r l s ∧ (n :: anc) <:+ (s :: l)

/-- Position `j` has been corrected. -/
def DoneAt (cur : List Span) (j : Nat) : Prop :=
  ∀ s l, orig[j]? = some s → Path orig r l s → cur[j]? = some (corrected l s)

variable {orig r}

theorem idx_unique (hi : SortedDesc orig) {i j : Nat} {s : Span} (h : orig[i]? = some s)
    (h' : orig[j]? = some s) : i = j := by
  rcases Nat.lt_trichotomy i j with hlt | heq | hgt
  · exact absurd (hi.get_lt hlt h h') Int64.lt_irrefl
  · exact heq
  · exact absurd (hi.get_lt hgt h' h) Int64.lt_irrefl

theorem below_cases (hs : SortedDesc orig) {i : Nat} {n : Span} {anc : List Span}
    (hn : orig[i]? = some n) (hp : Path orig r anc n) (j : Nat) :
    Below orig r n anc j ↔
      j = i ∨ ∃ c ∈ childrenOf orig n.id, ∃ cs, orig[c]? = some cs ∧ Below orig r cs (n :: anc) j := by
  constructor
  · rintro ⟨s, l, hj, hpath, t, ht⟩
    rcases List.eq_nil_or_concat t with rfl | ⟨t', x, rfl⟩
    · left
      simp only [List.nil_append, List.cons.injEq] at ht
      rw [← ht.1] at hj
      exact idx_unique hs hj hn
    · right
      simp only [List.concat_eq_append, List.append_assoc, List.cons_append, List.nil_append] at ht
      have hx := Path.sub hpath ht.symm
      cases hx with
      | child hp' hm hpar hne =>
        obtain ⟨c, hc⟩ := List.getElem?_of_mem hm
        exact ⟨c, mem_childrenOf.mpr ⟨x, hc, hpar, hne⟩, x, hc, s, l, hj, hpath, t', ht⟩
  · rintro (rfl | ⟨c, _, cs, hcs, s, l, hj, hpath, hsuf⟩)
    · exact ⟨n, anc, hn, hp, List.suffix_refl _⟩
    · exact ⟨s, l, hj, hpath, (List.suffix_cons _ _).trans hsuf⟩

theorem below_disjoint (hs : SortedDesc orig) (hr : IsRootOf orig r) {c c' : Span} {l : List Span} {j : Nat}
    (h : Below orig r c l j) (h' : Below orig r c' l j) : c = c' := by
  obtain ⟨s, a, hj, hp, t, ht⟩ := h
  obtain ⟨s', a', hj', hp', t', ht'⟩ := h'
  rw [hj] at hj'
  cases hj'
  have := Path.unique hs.uniqueIds hr hp hp'
  subst this
  have heq : t ++ (c :: l) = t' ++ (c' :: l) := ht.trans ht'.symm
  have := List.append_inj' heq (by simp)
  simpa using this.2

theorem not_below_child (hs : SortedDesc orig) (hr : IsRootOf orig r) {i : Nat} {n c : Span} {anc : List Span}
    (hn : orig[i]? = some n) (hp : Path orig r anc n) : ¬ Below orig r c (n :: anc) i := by
  rintro ⟨s, l, hj, hpath, t, ht⟩
  rw [hn] at hj; cases hj
  have := Path.unique hs.uniqueIds hr hp hpath
  subst this
  have := congrArg List.length ht
  simp at this; omega

/-- What a call of `correctTreeTimings` on the spans satisfying `P` does. -/
def Effect (P : Nat → Prop) (st st' : CorrectState) : Prop :=
  SameSkeleton st'.spans orig ∧ (∀ j, P j → DoneAt orig r st'.spans j) ∧
  (∀ j, ¬ P j → st'.spans[j]? = st.spans[j]?) ∧
  ∃ new, st'.visits = new ++ st.visits ∧ new.Nodup ∧ ∀ j, j ∈ new ↔ P j

theorem correctTree_spec (hs : SortedDesc orig) (hr : IsRootOf orig r) (fuel : Nat) :
    ∀ (st : CorrectState) (i : Nat) (n : Span) (anc : List Span) (parent : Option Nat),
      orig[i]? = some n → Path orig r anc n → orig.length < fuel + anc.length + 1 →
      SameSkeleton st.spans orig → (∀ j, Below orig r n anc j → st.spans[j]? = orig[j]?) →
      (parent.bind fun p => (st.spans[p]?).map (·.timestamp)) = parentStart anc →
      ∃ st', correctTree fuel st i parent (shift anc) = some st' ∧
        Effect (orig := orig) (r := r) (Below orig r n anc) st st' := by
  classical
  induction fuel with
  | zero =>
    intro st i n anc parent hn hp hf
    have := Path.length_lt hs.uniqueIds hr hp
    omega
  | succ fuel ih =>
    intro st i n anc parent hn hp hf hsk hun hpar
    have hcur : st.spans[i]? = some n := by
      rw [hun i ((below_cases hs hn hp i).mpr (Or.inl rfl)), hn]
    have hilt : i < st.spans.length := (List.getElem?_eq_some_iff.mp hcur).1
    rw [correctTree]
    simp only [hcur, hpar, correctNode_spec]
    have hcid : (corrected anc n).id = n.id := rfl
    have hsk1 : SameSkeleton (st.spans.set i (corrected anc n)) orig := hsk.set hcur rfl rfl
    rw [hcid, hsk1.children]
    -- the loop over the children
    have loop : ∀ (cs : List Nat), cs.Nodup → (∀ c ∈ cs, c ∈ childrenOf orig n.id) →
        ∀ st1 : CorrectState, SameSkeleton st1.spans orig →
          (st1.spans[i]?).map (·.timestamp) = some (start anc n) →
          (∀ c ∈ cs, ∀ x, orig[c]? = some x → ∀ j, Below orig r x (n :: anc) j → st1.spans[j]? = orig[j]?) →
          ∃ st', cs.foldlM (fun st child => correctTree fuel st child (some i) (shift (n :: anc))) st1 = some st' ∧
            Effect (orig := orig) (r := r)
              (fun j => ∃ c ∈ cs, ∃ x, orig[c]? = some x ∧ Below orig r x (n :: anc) j) st1 st' := by
      intro cs
      induction cs with
      | nil =>
        intro _ _ st1 hsk1 _ _
        refine ⟨st1, rfl, hsk1, ?_, ?_, [], rfl, List.nodup_nil, ?_⟩
        · rintro j ⟨c, hc, _⟩; simp at hc
        · intro _ _; rfl
        · intro j; simp
      | cons c cs ihc =>
        intro hnd hch st1 hsk1 hts hun1
        rw [List.nodup_cons] at hnd
        obtain ⟨x, hx, hxp, hxne⟩ := mem_childrenOf.mp (hch c (by simp))
        have hpx : Path orig r (n :: anc) x := Path.child hp (List.mem_of_getElem? hx) hxp hxne
        obtain ⟨st2, hst2, hsk2, hdone2, hkeep2, new2, hv2, hnd2, hmem2⟩ :=
          ih st1 c x (n :: anc) (some i) hx hpx (by simp only [List.length_cons]; omega) hsk1
            (hun1 c (by simp) x hx) (by simpa [parentStart] using hts)
        have hi2 : st2.spans[i]? = st1.spans[i]? := hkeep2 i (not_below_child hs hr hn hp)
        have hdis : ∀ d ∈ cs, ∀ y, orig[d]? = some y → ∀ j, Below orig r y (n :: anc) j →
            ¬ Below orig r x (n :: anc) j := by
          intro d hd y hy j hb hb'
          have hxy := below_disjoint hs hr hb' hb
          subst hxy
          have hcd := idx_unique hs hx hy
          subst hcd
          exact hnd.1 hd
        obtain ⟨st3, hst3, hsk3, hdone3, hkeep3, new3, hv3, hnd3, hmem3⟩ :=
          ihc hnd.2 (fun d hd => hch d (by simp [hd])) st2 hsk2 (by rw [hi2]; exact hts) (by
            intro d hd y hy j hb
            rw [hkeep2 j (hdis d hd y hy j hb)]
            exact hun1 d (by simp [hd]) y hy j hb)
        refine ⟨st3, ?_, hsk3, ?_, ?_, new3 ++ new2, ?_, ?_, ?_⟩
        · rw [List.foldlM_cons, hst2]; exact hst3
        · rintro j ⟨d, hd, y, hy, hb⟩
          rcases List.mem_cons.mp hd with rfl | hd
          · rw [hx] at hy; cases hy
            by_cases hin : ∃ c ∈ cs, ∃ x, orig[c]? = some x ∧ Below orig r x (n :: anc) j
            · exact hdone3 j hin
            · intro s l hs' hl
              rw [hkeep3 j hin]
              exact hdone2 j hb s l hs' hl
          · exact hdone3 j ⟨d, hd, y, hy, hb⟩
        · intro j hj
          rw [hkeep3 j (fun ⟨d, hd, y, hy, hb⟩ => hj ⟨d, by simp [hd], y, hy, hb⟩),
            hkeep2 j (fun hb => hj ⟨c, by simp, x, hx, hb⟩)]
        · rw [hv3, hv2, List.append_assoc]
        · rw [List.nodup_append]
          refine ⟨hnd3, hnd2, ?_⟩
          intro a ha b hb hab
          subst hab
          obtain ⟨d, hd, y, hy, hbl⟩ := (hmem3 a).mp ha
          exact hdis d hd y hy a hbl ((hmem2 a).mp hb)
        · intro j
          rw [List.mem_append, hmem3, hmem2]
          constructor
          · rintro (⟨d, hd, y, hy, hb⟩ | hb)
            · exact ⟨d, by simp [hd], y, hy, hb⟩
            · exact ⟨c, by simp, x, hx, hb⟩
          · rintro ⟨d, hd, y, hy, hb⟩
            rcases List.mem_cons.mp hd with rfl | hd
            · rw [hx] at hy; cases hy; exact Or.inr hb
            · exact Or.inl ⟨d, hd, y, hy, hb⟩
    obtain ⟨st', hst', hsk', hdone', hkeep', new, hv, hnd, hmem⟩ :=
      loop (childrenOf orig n.id) (childrenOf_nodup _ _) (fun _ h => h)
        { spans := st.spans.set i (corrected anc n), visits := i :: st.visits } hsk1
        (by simp only [List.getElem?_set_self hilt]; rfl)
        (by
          intro c hc x hx j hb
          have hne : i ≠ j := by
            rintro rfl; exact not_below_child hs hr hn hp hb
          rw [List.getElem?_set_ne hne]
          exact hun j ((below_cases hs hn hp j).mpr (Or.inr ⟨c, hc, x, hx, hb⟩)))
    refine ⟨st', hst', hsk', ?_, ?_, new ++ [i], ?_, ?_, ?_⟩
    · intro j hj
      rcases (below_cases hs hn hp j).mp hj with rfl | ⟨c, hc, x, hx, hb⟩
      · intro s l hs' hl
        rw [hn] at hs'; cases hs'
        have := Path.unique hs.uniqueIds hr hp hl
        subst this
        rw [hkeep' j (by
          rintro ⟨c, hc, x, hx, hb⟩; exact not_below_child hs hr hn hp hb)]
        exact List.getElem?_set_self hilt
      · exact hdone' j ⟨c, hc, x, hx, hb⟩
    · intro j hj
      have h1 : i ≠ j := by
        rintro rfl; exact hj ((below_cases hs hn hp i).mpr (Or.inl rfl))
      rw [hkeep' j (fun ⟨c, hc, x, hx, hb⟩ => hj ((below_cases hs hn hp j).mpr (Or.inr ⟨c, hc, x, hx, hb⟩)))]
      exact List.getElem?_set_ne h1
    · rw [hv, List.append_assoc]; rfl
    · rw [List.nodup_append]
      refine ⟨hnd, by simp, ?_⟩
      intro a ha b hb hab
      simp only [List.mem_singleton] at hb
      subst hb; subst hab
      obtain ⟨c, hc, x, hx, hb⟩ := (hmem a).mp ha
      exact not_below_child hs hr hn hp hb
    · intro j
      rw [List.mem_append, hmem, List.mem_singleton, below_cases hs hn hp j]
      exact or_comm

end

/-- More fuel does not change the result. -/
theorem correctTree_mono (f : Nat) : ∀ (st : CorrectState) (i : Nat) (p : Option Nat) (off : Duration) (st'),
    correctTree f st i p off = some st' → correctTree (f + 1) st i p off = some st' := by
  induction f with
  | zero => intro st i p off st' h; simp [correctTree] at h
  | succ f ih =>
    intro st i p off st' h
    rw [correctTree] at h ⊢
    split at h
    · exact h
    · next n hn =>
      simp only at h ⊢
      generalize childrenOf _ _ = cs at h ⊢
      generalize ({ spans := _, visits := _ } : CorrectState) = s0 at h ⊢
      generalize (correctNode _ _ _).2 = o at h ⊢
      induction cs generalizing s0 with
      | nil => exact h
      | cons c cs ihc =>
        rw [List.foldlM_cons] at h ⊢
        cases hc : correctTree f s0 c (some i) o with
        | none => rw [hc] at h; simp at h
        | some s1 =>
          rw [ih _ _ _ _ _ hc]
          rw [hc] at h
          exact ihc _ h

theorem correctTree_mono' {f g : Nat} (hfg : f ≤ g) {st : CorrectState} {i : Nat} {p : Option Nat}
    {off : Duration} {st'} (h : correctTree f st i p off = some st') : correctTree g st i p off = some st' := by
  induction g with
  | zero => have : f = 0 := by omega
            subst this; exact h
  | succ g ih =>
    by_cases hf : f ≤ g
    · exact correctTree_mono g _ _ _ _ _ (ih hf)
    · have : f = g + 1 := by omega
      subst this; exact h

/-! ## Roots and the fake root -/

theorem mem_roots {l : List Span} {i : Nat} : i ∈ roots l ↔ ∃ s, l[i]? = some s ∧ IsRootOf l s := by
  unfold roots
  rw [List.mem_filter, List.mem_range]
  constructor
  · rintro ⟨hi, h⟩
    have hs : l[i]? = some l[i] := List.getElem?_eq_getElem hi
    rw [hs] at h
    refine ⟨_, hs, List.mem_of_getElem? hs, ?_⟩
    simpa [Span.isRoot] using h
  · rintro ⟨s, hs, _, h⟩
    refine ⟨(List.getElem?_eq_some_iff.mp hs).1, ?_⟩
    rw [hs]
    simpa [Span.isRoot] using h

theorem roots_nodup (l : List Span) : (roots l).Nodup := List.Pairwise.filter _ List.nodup_range

theorem mem_pick_roots {l : List Span} {s : Span} : s ∈ pick l (roots l) ↔ IsRootOf l s := by
  unfold pick
  rw [List.mem_filterMap]
  constructor
  · rintro ⟨i, hi, hs⟩
    obtain ⟨s', hs', h⟩ := mem_roots.mp hi
    rw [hs] at hs'; cases hs'; exact h
  · intro h
    obtain ⟨i, hi⟩ := List.getElem?_of_mem h.1
    exact ⟨i, mem_roots.mpr ⟨s, hi, h⟩, hi⟩

theorem allTheSameParent_iff {l : List Span} :
    allTheSameParent l = true ↔ ∀ a ∈ l, ∀ b ∈ l, a.parent = b.parent := by
  cases l with
  | nil => simp [allTheSameParent]
  | cons s rest =>
    unfold allTheSameParent
    rw [List.all_eq_true]
    constructor
    · intro h a ha b hb
      have h1 := h a ha
      have h2 := h b hb
      simp only [beq_iff_eq] at h1 h2
      rw [← h1, h2]
    · intro h b hb
      simp only [beq_iff_eq]
      exact h s (by simp) b hb

end Verif
