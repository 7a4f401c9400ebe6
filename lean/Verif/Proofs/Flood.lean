import Verif.Proofs.Tick
import Verif.Props.Tree

/-!
# Histories that consist of one burst of spans

Used to show that hypotheses can be met, and for counterexamples.
-/

namespace Verif

open Spec Std

/-- All spans are received at the time 0. -/
def flood (l : List Span) : World := l.foldl (fun w s => w.receive 0 0 s) { clock := 0 }

theorem flood_append (l : List Span) (s : Span) : flood (l ++ [s]) = (flood l).receive 0 0 s := by
  unfold flood; rw [List.foldl_append]; rfl

theorem flood_clock (l : List Span) : (flood l).clock = 0 := by
  induction l using list_snoc_induction with
  | h0 => rfl
  | h1 l s ih => rw [flood_append]; rfl

theorem flood_reachable (l : List Span) : Reachable (flood l) := by
  induction l using list_snoc_induction with
  | h0 => exact .init 0
  | h1 l s ih => rw [flood_append]; exact .receive 0 0 s ih (by rw [flood_clock]; exact Int.le_refl _) (Int.le_refl _)

/-- The trace made of the given spans. -/
def gathered (k : Id) (l : List Span) : Tree := assemble 0 k (l.map fun s => ((0 : Time), s))

theorem gathered_append (k : Id) (l : List Span) (s : Span) : gathered k (l ++ [s]) = (gathered k l).addSpan 0 s := by
  unfold gathered assemble
  rw [List.map_append, List.foldl_append]; rfl

theorem flood_spec (l : List Span) :
    (flood l).c.blacklist = ∅ ∧ (flood l).removed = [] ∧
    ∀ k, (flood l).c.traces[k]? = if receivedFor k l = [] then none else some (gathered k (receivedFor k l)) := by
  induction l using list_snoc_induction with
  | h0 => exact ⟨rfl, rfl, fun k => by simp [flood, receivedFor]⟩
  | h1 l s ih =>
    obtain ⟨h1, h2, h3⟩ := ih
    rw [flood_append]
    refine ⟨?_, h2, ?_⟩
    · unfold World.receive Collector.receive
      rw [h1]; dsimp only
      split
      · exact h1
      · split
        · rfl
        · rfl
    · intro k
      have hrec := receivedFor_append k l s
      by_cases ht : Traced s
      · have hnt : ¬ (s.trace = 0 ∨ s.id = 0) := fun h => (not_traced_iff s).mp h ht
        have : ((flood l).receive 0 0 s).c.traces = (flood l).c.traces.insert s.trace
            ((((flood l).c.traces[s.trace]?).getD (newTree 0 s.trace)).addSpan 0 s) := by
          unfold World.receive Collector.receive
          rw [h1, if_neg hnt, if_neg (by simp)]
        rw [this, get_insert]
        by_cases hk : s.trace = k
        · subst hk
          rw [if_pos ⟨ht, rfl⟩] at hrec
          rw [if_pos rfl, hrec, if_neg (by simp), gathered_append, h3]
          split
          · next he => rw [he]; rfl
          · rfl
        · rw [if_neg (fun h => hk h.2), List.append_nil] at hrec
          rw [if_neg hk, hrec, h3]
      · have : ((flood l).receive 0 0 s).c.traces = (flood l).c.traces := by
          unfold World.receive Collector.receive
          rw [if_pos ((not_traced_iff s).mpr ht)]
        rw [if_neg (fun h => ht h.1), List.append_nil] at hrec
        rw [this, hrec, h3]

theorem sortedDesc_ids {l : List Span} (h : SortedDesc l) : (l.map Span.id).Nodup := by
  rw [List.Nodup, List.pairwise_map]
  refine List.Pairwise.imp ?_ h
  intro a b hab he
  rw [he] at hab
  exact Int64.lt_irrefl hab

theorem eq_of_id {l : List Span} (h : SortedDesc l) {a b : Span} (ha : a ∈ l) (hb : b ∈ l) (he : a.id = b.id) : a = b := by
  induction l with
  | nil => contradiction
  | cons x l ih =>
    rw [SortedDesc, List.pairwise_cons] at h
    rcases List.mem_cons.mp ha with rfl | ha' <;> rcases List.mem_cons.mp hb with rfl | hb'
    · rfl
    · have := h.1 b hb'
      rw [he] at this; exact (Int64.lt_irrefl this).elim
    · have := h.1 a ha'
      rw [he] at this; exact (Int64.lt_irrefl this).elim
    · exact ih h.2 ha' hb'

theorem spans_length {t : Tree} (h : t.Inv) (hn : (t.members.map Span.id).Nodup) : t.spans.length = t.members.length := by
  have : (t.spans.map Span.id).Perm (t.members.map Span.id) := by
    rw [List.perm_ext_iff_of_nodup (sortedDesc_ids h.sorted) hn]
    intro id
    simp only [List.mem_map]
    exact h.ids id
  simpa using this.length_eq

theorem gathered_props (k : Id) (l : List Span) (hn : (l.map Span.id).Nodup) :
    (gathered k l).spans.length = l.length ∧ (gathered k l).started = 0 ∧ (l ≠ [] → (gathered k l).updated = 0) := by
  obtain ⟨h1, h2, h3⟩ := assemble_inv_members 0 k (l.map fun s => ((0 : Time), s))
  have h2' : (assemble 0 k (l.map fun s => ((0 : Time), s))).members = l := by
    rw [h2, List.map_map]; exact List.map_id _
  refine ⟨?_, ?_, ?_⟩
  · show (assemble _ _ _).spans.length = _
    rw [spans_length h1 (by rw [h2']; exact hn), h2']
  · clear hn h1 h2 h3 h2'
    induction l using list_snoc_induction with
    | h0 => rfl
    | h1 l s ih => rw [gathered_append, ((gathered k l).addSpan_fields 0 s).2.1, ih]
  · intro hne
    clear hn h1 h2 h3 h2'
    induction l using list_snoc_induction with
    | h0 => exact absurd rfl hne
    | h1 l s ih => rw [gathered_append, ((gathered k l).addSpan_fields 0 s).2.2]

/-- `n` spans of a trace: one root and its children. -/
def burst (k : Id) (n : Nat) : List Span :=
  (List.range n).map fun i => { id := .ofNat (i + 1), trace := k, parent := if i = 0 then 0 else 1 }

theorem burst_nodup (k : Id) (n : Nat) (hn : n < 2 ^ 63 - 1) : ((burst k n).map Span.id).Nodup := by
  unfold burst
  rw [List.map_map, List.Nodup, List.pairwise_map]
  refine List.Pairwise.imp_of_mem ?_ (List.nodup_range (n := n))
  intro a b ha hb hab
  simp only [List.mem_range, Function.comp] at *
  intro he
  have := congrArg Int64.toInt he
  rw [Int64.toInt_ofNat_of_lt (by omega), Int64.toInt_ofNat_of_lt (by omega)] at this
  omega

theorem burst_traced (k : Id) (hk : k ≠ 0) (n : Nat) (hn : n < 2 ^ 63 - 1) : ∀ s ∈ burst k n, Traced s ∧ s.trace = k := by
  intro s hs
  unfold burst at hs
  rw [List.mem_map] at hs
  obtain ⟨i, hi, rfl⟩ := hs
  refine ⟨⟨hk, ?_⟩, rfl⟩
  intro he
  have := congrArg Int64.toInt he
  rw [List.mem_range] at hi
  simp only at this
  rw [Int64.toInt_ofNat_of_lt (by omega)] at this
  simp at this; omega

theorem receivedFor_burst (k k' : Id) (hk : k ≠ 0) (n : Nat) (hn : n < 2 ^ 63 - 1) :
    receivedFor k' (burst k n) = if k = k' then burst k n else [] := by
  unfold receivedFor
  split
  · next h =>
    rw [List.filter_eq_self]
    intro s hs
    obtain ⟨h1, h2⟩ := burst_traced k hk n hn s hs
    simp [h1, h2, h]
  · next h =>
    rw [List.filter_eq_nil_iff]
    intro s hs
    obtain ⟨h1, h2⟩ := burst_traced k hk n hn s hs
    simp [h1, h2, h]

/-- The trace of a burst has a unique root. -/
theorem burst_rooted (k : Id) (n : Nat) (hn : n < 2 ^ 63 - 1) (h0 : 0 < n) (hk : k ≠ 0) :
    ∃ r, UniqueRoot (gathered k (burst k n)).spans r := by
  obtain ⟨hinv, hm, _⟩ := assemble_inv_members 0 k ((burst k n).map fun s => ((0 : Time), s))
  have hm : (gathered k (burst k n)).members = burst k n := by
    show (assemble _ _ _).members = _
    rw [hm, List.map_map]; exact List.map_id _
  have hinv : (gathered k (burst k n)).Inv := hinv
  have hnd := burst_nodup k n (by omega)
  -- every span is one of the received ones, up to its tags
  have horig : ∀ s ∈ (gathered k (burst k n)).spans, ∃ m ∈ burst k n, m.id = s.id ∧ m.parent = s.parent := by
    intro s hs
    have hh := hinv.mem_held hs
    rw [hm] at hh
    unfold held at hh
    split at hh
    · contradiction
    · next a rest hf =>
      have hr : rest = [] := by
        cases rest with
        | nil => rfl
        | cons b rest =>
          exfalso
          have hsub : List.Sublist [a, b] (burst k n) := by
            have := List.filter_sublist (p := fun x : Span => x.id == s.id) (l := burst k n)
            rw [hf] at this
            exact ((List.nil_sublist rest).cons_cons b |>.cons_cons a).trans this
          have h2 := hnd.sublist (hsub.map Span.id)
          have ha : a ∈ (burst k n).filter (fun x => x.id == s.id) := by rw [hf]; simp
          have hb : b ∈ (burst k n).filter (fun x => x.id == s.id) := by rw [hf]; simp
          rw [List.mem_filter] at ha hb
          have ha := ha.2; have hb := hb.2
          simp only [beq_iff_eq] at ha hb
          simp [ha, hb] at h2
      subst hr
      have ha : a ∈ (burst k n).filter (fun x => x.id == s.id) := by rw [hf]; simp
      rw [List.mem_filter] at ha
      refine ⟨a, ha.1, by simpa using ha.2, ?_⟩
      have := congrArg Span.parent (Option.some.inj hh)
      exact this
  obtain ⟨r, hr, hrid⟩ := (hinv.ids 1).mpr ⟨{ id := 1, trace := k }, by
    rw [hm]; unfold burst; rw [List.mem_map]; exact ⟨0, by simpa using h0, rfl⟩, rfl⟩
  have hcases : ∀ m ∈ burst k n, m.id = 1 ∧ m.parent = 0 ∨ m.id ≠ 1 ∧ m.parent = 1 := by
    intro m hmm
    unfold burst at hmm
    rw [List.mem_map] at hmm
    obtain ⟨i, hi, rfl⟩ := hmm
    rw [List.mem_range] at hi
    by_cases h : i = 0
    · left; subst h; exact ⟨rfl, rfl⟩
    · right
      refine ⟨?_, by simp [h]⟩
      intro he
      have := congrArg Int64.toInt he
      simp only at this
      rw [Int64.toInt_ofNat_of_lt (by omega)] at this
      simp at this; omega
  have hspan : ∀ s ∈ (gathered k (burst k n)).spans, s.id ≠ 0 ∧ (s.id = 1 ∧ s.parent = 0 ∨ s.id ≠ 1 ∧ s.parent = 1) := by
    intro s hs
    obtain ⟨m, hmm, h1, h2⟩ := horig s hs
    rw [← h1, ← h2]
    exact ⟨(burst_traced k hk n hn m hmm).1.2, hcases m hmm⟩
  refine ⟨r, ⟨hr, Or.inr ?_⟩, ?_⟩
  · intro q hq
    have := (hspan r hr).2
    rw [hrid] at this
    have hp : r.parent = 0 := by
      rcases this with h | h
      · exact h.2
      · exact absurd rfl h.1
    rw [hp]; exact (hspan q hq).1
  · rintro q ⟨hq, hroot⟩
    have hid : q.id = 1 := by
      rcases (hspan q hq).2 with h | ⟨h, hp⟩
      · exact h.1
      · rcases hroot with he | he
        · rw [hp] at he; exact he.symm
        · exact absurd (hrid.trans hp.symm) (he r hr)
    -- the same id, so the same span
    exact eq_of_id hinv.sorted hq hr (hid.trans hrid.symm)

end Verif
