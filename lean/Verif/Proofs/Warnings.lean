import Verif.Model.Warnings
import Verif.Spec.Warnings
import Verif.Proofs.View
import Verif.Proofs.Tick
import Verif.Proofs.Sink
import Verif.Props.Id
import Verif.Proofs.Shift

/-!
# Proofs about the lines of the log
-/

namespace Verif

open Spec Std

theorem lt_ten_pow (n : Nat) : n < 10 ^ (n + 1) := by
  induction n with
  | zero => decide
  | succ n ih => rw [Nat.pow_succ]; omega

theorem numberText_spec (n : Nat) : CountText (numberText n) n := by
  obtain ⟨h1, h2, h3, h4⟩ := decimalDigits_spec (n + 1) n (lt_ten_pow n) (Nat.succ_pos n)
  refine ⟨h1, h2, ?_⟩
  by_cases h : n = 0
  · exact .inl (h3 h)
  · exact .inr (h4 h)

theorem idText_spec (id : Id) : IdText (idString id) id := C01_string_format id

/-! ## What a line says is unique -/

/-- Digits end where something else begins. -/
theorem digits_end {a b x y : Str} (ha : Digits a) (hb : Digits b) {p q : UInt8} (hp : ¬ (c!"0" ≤ p ∧ p ≤ c!"9")) (hq : ¬ (c!"0" ≤ q ∧ q ≤ c!"9"))
    (h : a ++ (p :: x) = b ++ (q :: y)) : a = b ∧ p :: x = q :: y := by
  replace ha := ha.2
  replace hb := hb.2
  induction a generalizing b with
  | nil =>
    cases b with
    | nil => exact ⟨rfl, h⟩
    | cons c b =>
      rw [List.nil_append, List.cons_append, List.cons.injEq] at h
      exact absurd (hb c List.mem_cons_self) (h.1 ▸ hp)
  | cons c a ih =>
    cases b with
    | nil =>
      rw [List.nil_append, List.cons_append, List.cons.injEq] at h
      exact absurd (ha c List.mem_cons_self) (h.1 ▸ hq)
    | cons d b =>
      rw [List.cons_append, List.cons_append, List.cons.injEq] at h
      obtain ⟨e1, e2⟩ := ih h.2 (fun z hz => ha z (List.mem_cons_of_mem _ hz)) (fun z hz => hb z (List.mem_cons_of_mem _ hz))
      exact ⟨by rw [h.1, e1], e2⟩

theorem idText_unique {i : Str} {a b : Id} (ha : IdText i a) (hb : IdText i b) : a = b := by
  have h : a.toUInt64.toNat = b.toUInt64.toNat := ha.2.2.symm.trans hb.2.2
  have := UInt64.toNat_inj.mp h
  have e := congrArg UInt64.toInt64 this
  simpa using e

/-- A line says only one thing. -/
theorem Spec.Says.unique {line : Str} {a b : Notice} (ha : Says line a) (hb : Says line b) : a = b := by
  have head : ∀ {p p' : Str} {x y : Str}, p.length = p'.length → p ++ x = p' ++ y → x = y := fun hl h => (List.append_inj h hl).2
  generalize hl : line = line' at hb
  have hsp : ¬ (c!"0" ≤ c!" " ∧ c!" " ≤ c!"9") := by decide
  cases ha with
  | @tooLarge i n trace spans hi hn =>
    cases hb with
    | @tooLarge i' n' trace' spans' hi' hn' =>
      simp only [List.append_assoc] at hl
      have h1 := head rfl hl
      obtain ⟨rfl, h2⟩ := List.append_inj h1 (hi.1.trans hi'.1.symm)
      obtain ⟨rfl, _⟩ := digits_end hn.1 hn'.1 hsp hsp (head rfl h2)
      rw [idText_unique hi hi', ← hn.2.1, ← hn'.2.1]
    | @tooOld i' n' trace' spans' hi' hn' =>
      simp only [List.append_assoc] at hl
      have h1 := head rfl hl
      obtain ⟨rfl, h2⟩ := List.append_inj h1 (hi.1.trans hi'.1.symm)
      obtain ⟨_, h3⟩ := digits_end hn.1 hn'.1 hsp hsp (head rfl h2)
      exact absurd h3 (by decide)
    | _ => simp at hl
  | @tooOld i n trace spans hi hn =>
    cases hb with
    | @tooOld i' n' trace' spans' hi' hn' =>
      simp only [List.append_assoc] at hl
      have h1 := head rfl hl
      obtain ⟨rfl, h2⟩ := List.append_inj h1 (hi.1.trans hi'.1.symm)
      obtain ⟨rfl, _⟩ := digits_end hn.1 hn'.1 hsp hsp (head rfl h2)
      rw [idText_unique hi hi', ← hn.2.1, ← hn'.2.1]
    | @tooLarge i' n' trace' spans' hi' hn' =>
      simp only [List.append_assoc] at hl
      have h1 := head rfl hl
      obtain ⟨rfl, h2⟩ := List.append_inj h1 (hi.1.trans hi'.1.symm)
      obtain ⟨_, h3⟩ := digits_end hn.1 hn'.1 hsp hsp (head rfl h2)
      exact absurd h3 (by decide)
    | _ => simp at hl
  | @crowded n spans hn =>
    cases hb with
    | @crowded n' spans' hn' =>
      simp only [List.append_assoc] at hl
      obtain ⟨rfl, _⟩ := digits_end hn.1 hn'.1 hsp hsp (head rfl hl)
      rw [← hn.2.1, ← hn'.2.1]
    | _ => simp at hl
  | @excess n spans hn =>
    cases hb with
    | @excess n' spans' hn' =>
      simp only [List.append_assoc] at hl
      obtain ⟨rfl, _⟩ := digits_end hn.1 hn'.1 hsp hsp (head rfl hl)
      rw [← hn.2.1, ← hn'.2.1]
    | _ => simp at hl
  | @discarded m n traces spans hm hn =>
    cases hb with
    | @discarded m' n' traces' spans' hm' hn' =>
      simp only [List.append_assoc] at hl
      obtain ⟨rfl, h⟩ := digits_end hm.1 hm'.1 hsp hsp (head rfl hl)
      obtain ⟨rfl, _⟩ := digits_end hn.1 hn'.1 hsp hsp (head (p := b!" trace with ") rfl h)
      rw [← hn.2.1, ← hn'.2.1, ← hm.2.1, ← hm'.2.1]
    | _ => simp at hl
  | @sending m n spans traces hm hn =>
    cases hb with
    | @sending m' n' spans' traces' hm' hn' =>
      simp only [List.append_assoc] at hl
      obtain ⟨rfl, h⟩ := digits_end hm.1 hm'.1 hsp hsp (head rfl hl)
      obtain ⟨rfl, _⟩ := digits_end hn.1 hn'.1 hsp hsp (head (p := b!" spans in traces ") rfl h)
      rw [← hn.2.1, ← hn'.2.1, ← hm.2.1, ← hm'.2.1]
    | _ => simp at hl
  | refused =>
    cases hb with
    | refused => rfl
    | _ => simp at hl
  | @blocked n traces hn =>
    cases hb with
    | @blocked n' traces' hn' =>
      simp only [List.append_assoc] at hl
      obtain ⟨rfl, _⟩ := digits_end hn.1 hn'.1 hsp hsp (head rfl hl)
      rw [← hn.2.1, ← hn'.2.1]
    | _ => simp at hl

/-! ## The collector -/

theorem finishTree_silent (now : Time) (t : Tree) (id : Id) (x : Tree) : noticeOf ⟨id, x, finishTree now t⟩ = none := by
  unfold finishTree
  dsimp only
  split
  · split <;> rfl
  · rfl

theorem finishLine_says {dU dS : Time} {nf : Id → Time} {e : Id × Tree} (h : e.2.Inv) :
    Pairwise₂ Says (finishLine dU dS e) ((removals dU dS nf [e]).filterMap noticeOf) := by
  unfold finishLine removals examine
  rw [List.filterMap_cons, List.filterMap_nil]
  dsimp only
  by_cases h1 : (!e.2.tooLarge && !decide (e.2.started < dS) && decide (e.2.updated > dU)) = true
  · rw [if_pos h1, if_pos h1]; exact .nil
  · rw [if_neg h1, if_neg h1]
    by_cases h2 : e.2.tooLarge = true
    · rw [if_pos h2, if_pos h2]
      refine .cons ?_ .nil
      rw [show size e.2 = e.2.nodeCount.toNat from h.count.symm]
      exact .tooLarge (idText_spec _) (numberText_spec _)
    · rw [if_neg h2, if_neg h2]
      by_cases h3 : decide (e.2.started < dS) = true
      · rw [if_pos h3, if_pos h3]
        refine .cons ?_ .nil
        rw [show size e.2 = e.2.nodeCount.toNat from h.count.symm]
        exact .tooOld (idText_spec _) (numberText_spec _)
      · rw [if_neg h3, if_neg h3]
        dsimp only [Option.map_some]
        rw [List.filterMap_cons, finishTree_silent]
        exact .nil

theorem finishLines_says {dU dS : Time} {nf : Id → Time} {l : List (Id × Tree)} (h : ∀ e ∈ l, e.2.Inv) :
    Pairwise₂ Says (l.flatMap (finishLine dU dS)) ((removals dU dS nf l).filterMap noticeOf) := by
  induction l with
  | nil => exact .nil
  | cons e l ih =>
    have split : removals dU dS nf (e :: l) = removals dU dS nf [e] ++ removals dU dS nf l := by
      unfold removals
      rw [← List.filterMap_append]; rfl
    rw [split, List.filterMap_append, List.flatMap_cons]
    exact (finishLine_says (h e List.mem_cons_self)).app (ih fun x hx => h x (List.mem_cons_of_mem _ hx))

/-- Examining a trace does not discard it. -/
theorem finishLine_fate {dU dS : Time} {nf : Id → Time} {e : Id × Tree} {f : Fate} (h : examine dU dS nf e = some f) : f ≠ .discarded := by
  unfold examine at h
  split at h
  · cases h
  · split at h
    · cases h; simp
    · split at h
      · cases h; simp
      · cases h
        unfold finishTree
        dsimp only
        split
        · split <;> simp
        · simp

theorem discardLoop_same (l : List (Id × Tree)) : ∀ (n : Int) (c c' : Collector) (rem : List Removal) (ds dt : Nat),
    (discardLoop l n c rem ds dt).2 = (discardLoop l n c' rem ds dt).2 := by
  induction l with
  | nil => intros; rfl
  | cons e l ih =>
    intro n c c' rem ds dt
    unfold discardLoop
    split
    · rfl
    · exact ih _ _ _ _ _ _

end Verif
