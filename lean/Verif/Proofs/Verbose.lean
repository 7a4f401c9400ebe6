import Verif.Spec.Verbose
import Verif.Proofs.Warnings
import Verif.Props.Debug

/-!
# Lemmas on the log at the level Debug
-/

namespace Verif

open Spec Std

theorem timingLines_silent {entry : Nat} (h : entry < debugLevel) (level : Nat) (node : Span) (parent : Option Span) (offset : Duration) :
    timingLines entry level node parent offset = [] := by
  have h' : ¬ entry ≥ debugLevel := Nat.not_le.mpr h
  unfold timingLines
  dsimp only
  rw [if_neg h']
  rw [ite_self]
  cases parent with
  | none => rfl
  | some p =>
    rw [List.nil_append]
    dsimp only
    rw [if_neg h', ite_self]

theorem foldlM_silent {α : Type} {f : CorrectState → α → Option CorrectState} {g : CorrectState × List Written → α → Option (CorrectState × List Written)} {w : List Written}
    (h : ∀ st a, g (st, w) a = (f st a).map (·, w)) (l : List α) : ∀ st, l.foldlM g (st, w) = (l.foldlM f st).map (·, w) := by
  induction l with
  | nil => intro st; rfl
  | cons a l ih =>
    intro st
    rw [List.foldlM_cons, List.foldlM_cons, h]
    cases f st a with
    | none => rfl
    | some st' => exact ih st'

/-- With an entry below `DebugLevel` nothing is written about times. -/
theorem correctTreeW_silent {entry : Nat} (h : entry < debugLevel) (level : Nat) (w : List Written) : ∀ (fuel : Nat) (st : CorrectState) (node : Nat) (parent : Option Nat)
    (offset : Duration), correctTreeW entry level fuel (st, w) node parent offset = (correctTree fuel st node parent offset).map (·, w) := by
  intro fuel
  induction fuel with
  | zero => intros; rfl
  | succ fuel ih =>
    intro st node parent offset
    unfold correctTreeW correctTree
    dsimp only
    cases hn : st.spans[node]? with
    | none => rfl
    | some n =>
      dsimp only
      have hp : (parent.bind fun p => st.spans[p]?).map (·.timestamp) = parent.bind fun p => (st.spans[p]?).map (·.timestamp) := by cases parent <;> rfl
      rw [hp, timingLines_silent h, List.append_nil]
      exact foldlM_silent (fun st child => ih st child _ _) _ _

theorem printTrace_tells (spans : List Span) : Tells (printTrace 5 spans) (.tree spans) := by
  unfold printTrace
  rw [show decide ((5 : Nat) = debugLevel) = true from rfl, debugPrintTrace_eq spans _ (by decide)]
  exact .tree fun d s => C72_shown (Nat.le_refl 7) (debugPrintTrace_eq spans 7 (Nat.le_refl 7)) d s

theorem printTrace_other {level : Nat} (h : level ≠ 5) (spans : List Span) : printTrace level spans = [] := by
  unfold printTrace
  rw [decide_eq_false (show ¬ level = debugLevel from h)]
  rfl

theorem Spec.TellsAll.append {a b : List Written} {l m : List Detail} (h : TellsAll a l) (h' : TellsAll b m) : TellsAll (a ++ b) (l ++ m) := by
  induction h with
  | nil => exact h'
  | cons ha _ ih => rw [List.append_assoc]; exact .cons ha ih

theorem Spec.Tells.one {a : List Written} {d : Detail} (h : Tells a d) : TellsAll a [d] := by
  have := TellsAll.cons h .nil
  rwa [List.append_nil] at this

theorem inject_iff {spans : List Span} (hs : SortedDesc spans) :
    (decide ((roots spans).length > 1) && allTheSameParent (pick spans (roots spans))) = true ↔ ∃ p, SharedParent spans p := by
  rw [Bool.and_eq_true, decide_eq_true_iff]
  constructor
  · rintro ⟨h1, h2⟩
    rw [← pick_roots_cases] at h1
    match hp : pick spans (roots spans) with
    | [] => rw [hp] at h1; cases h1
    | [_] => rw [hp] at h1; simp at h1
    | first :: second :: rest => rw [hp] at h2; exact ⟨_, sharedParent_of_pick hs hp h2⟩
  · rintro ⟨p, hp⟩
    obtain ⟨first, second, rest, h1, h2⟩ := two_roots hs hp
    rw [← pick_roots_cases, h1]
    exact ⟨by simp, h2⟩

/-- What is written about a trace that is neither too large nor too old. -/
theorem rootLinesW_tells {t : Tree} (nf : Time) (h : t.Ok) : ∃ d, Account ⟨t.traceId, t, finishTree nf t⟩ d ∧ TellsAll (rootLinesW entryLevel 5 nf t.traceId t) d := by
  obtain ⟨hinv, hrep, hroot⟩ := withFakeRoot_spec nf h
  have hfin := finishTree_spec nf h
  have hcount : (withFakeRoot nf t).nodeCount.toNat = (withFakeRoot nf t).spans.length % 65536 := hinv.count
  unfold rootLinesW
  dsimp only
  have silent : ∀ r, ((correctTreeW entryLevel 5 (withFakeRoot nf t).spans.length ({ spans := (withFakeRoot nf t).spans }, []) r none 0).map (·.2)).getD [] = [] := by
    intro r
    rw [correctTreeW_silent (by decide)]
    cases correctTree _ _ r none 0 <;> rfl
  have unique : Rooted t.traceId t.spans → ∃ r, roots (withFakeRoot nf t).spans = [r] := by
    intro hr
    obtain ⟨r, hu⟩ := hroot.mpr hr
    obtain ⟨i, hi, _⟩ := (uniqueRoot_iff hinv.sorted r).mp hu
    exact ⟨i, hi⟩
  have several : ¬ Rooted t.traceId t.spans → ∀ r, roots (withFakeRoot nf t).spans ≠ [r] := by
    intro hr r hr'
    refine absurd (hroot.mp ?_) hr
    obtain ⟨s, hs, _⟩ := mem_roots.mp (show r ∈ roots (withFakeRoot nf t).spans by rw [hr']; simp)
    exact ⟨s, (uniqueRoot_iff hinv.sorted s).mpr ⟨r, hr', hs⟩⟩
  have missing : Tells (debugf 5 (b!"No unique root for trace " ++ idString t.traceId ++ b!" with " ++ numberText (withFakeRoot nf t).nodeCount.toNat ++ b!" spans"))
      (.noRoot t.traceId ((withFakeRoot nf t).spans.length % 65536)) := by
    rw [hcount]
    exact .noRoot (idText_spec _) (numberText_spec _)
  by_cases hs : ∃ p, SharedParent t.spans p
  · rw [if_pos ((inject_iff h.inv.sorted).mpr hs)]
    have first : TellsAll (debugf 5 b!"Missing root, injecting fake-root span" ++ printTrace 5 (withFakeRoot nf t).spans) [.injected, .tree (withFakeRoot nf t).spans] :=
      .cons .injected (printTrace_tells _).one
    obtain ⟨p, hp⟩ := hs
    rcases hfin with ⟨out, ho, hr, _⟩ | ⟨ho, hr⟩
    · rw [ho]
      refine ⟨_, .repaired hp hrep, ?_⟩
      obtain ⟨r, e⟩ := unique hr
      rw [e]
      dsimp only
      rw [silent, List.append_nil]
      exact first
    · rw [ho]
      refine ⟨_, .inVain hp hrep, ?_⟩
      split
      · next r hr' => exact absurd hr' (several hr r)
      · exact first.append (.cons missing (printTrace_tells _).one)
  · rw [if_neg fun hi => hs ((inject_iff h.inv.sorted).mp hi), List.nil_append]
    have same : (withFakeRoot nf t).spans = t.spans := by
      rcases hrep with ⟨p, _, hp, _⟩ | ⟨_, e⟩
      · exact absurd ⟨p, hp⟩ hs
      · exact e
    have hs' : ∀ p, ¬ SharedParent t.spans p := fun p hp => hs ⟨p, hp⟩
    rcases hfin with ⟨out, ho, hr, _⟩ | ⟨ho, hr⟩
    · rw [ho]
      refine ⟨_, .emitted hs', ?_⟩
      obtain ⟨r, e⟩ := unique hr
      rw [e]
      dsimp only
      rw [silent]
      exact .nil
    · rw [ho]
      refine ⟨_, .noRoot hs', ?_⟩
      split
      · next r hr' => exact absurd hr' (several hr r)
      · rw [show size t = (withFakeRoot nf t).spans.length % 65536 by rw [same]; rfl]
        refine .cons missing ?_
        rw [same]
        exact (printTrace_tells _).one

end Verif
