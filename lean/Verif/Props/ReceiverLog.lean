import Verif.Spec.ReceiverLog
import Verif.Proofs.View

/-!
# The log of a consumer: C156
-/

namespace Verif

open Spec

/-! ## How it is read -/

theorem digits_colon {t : Str} (h : Digits t) : c!":" ∉ t := fun hc => by
  have := h.2 _ hc
  revert this; decide

theorem intText_colon {t : Str} {n : Int} (h : IntText t n) : c!":" ∉ t := by
  rcases h with ⟨h, -⟩ | ⟨d, rfl, h, -⟩
  · exact digits_colon h
  · intro hc
    rcases List.mem_cons.mp hc with hc | hc
    · revert hc; decide
    · exact digits_colon h hc

theorem intText_unique {t : Str} {n m : Int} (h : IntText t n) (h' : IntText t m) : n = m := by
  have hd : ∀ {d : Str}, ¬ Digits (c!"-" :: d) := fun h => by
    have := h.2 _ List.mem_cons_self
    revert this; decide
  rcases h with ⟨h, rfl⟩ | ⟨d, rfl, h, rfl⟩
  · rcases h' with ⟨h', rfl⟩ | ⟨d, rfl, h', rfl⟩
    · rfl
    · exact absurd h hd
  · rcases h' with ⟨h', rfl⟩ | ⟨d', e, h', rfl⟩
    · exact absurd h' hd
    · rw [(List.cons.inj e).2]

theorem split_last {α : Type} {x y a b : List α} {c : α} (h : x ++ c :: a = y ++ c :: b) (ha : c ∉ a) (hb : c ∉ b) : x = y ∧ a = b := by
  rcases List.append_eq_append_iff.mp h with ⟨l, h1, h2⟩ | ⟨l, h1, h2⟩
  · cases l with
    | nil => rw [List.append_nil] at h1; rw [List.nil_append] at h2; exact ⟨h1.symm, (List.cons.inj h2).2⟩
    | cons z l =>
      rw [List.cons_append] at h2
      obtain ⟨rfl, h3⟩ := List.cons.inj h2
      exact absurd (by rw [h3]; simp) ha
  · cases l with
    | nil => rw [List.append_nil] at h1; rw [List.nil_append] at h2; exact ⟨h1, (List.cons.inj h2).2.symm⟩
    | cons z l =>
      rw [List.cons_append] at h2
      obtain ⟨rfl, h3⟩ := List.cons.inj h2
      exact absurd (by rw [h3]; simp) hb

/-- C156: no line can be read in two ways. -/
theorem C156_readable {line : Str} {a b : ReceiverNotice} (ha : NoticeText line a) (hb : NoticeText line b) : a = b := by
  generalize he : line = line' at hb
  cases ha with
  | member h =>
    cases hb with
    | member h' => rw [List.append_cancel_left he] at h; rw [intText_unique h h']
    | claimed _ => simp at he
    | failed => simp at he
    | refused => simp at he
  | claimed h =>
    cases hb with
    | member _ => simp at he
    | claimed h' =>
      rw [List.append_assoc, List.append_assoc, List.append_assoc, List.append_assoc] at he
      obtain ⟨rfl, rfl⟩ := split_last (List.append_cancel_left he) (intText_colon h) (intText_colon h')
      rw [intText_unique h h']
    | failed => simp at he
    | refused => simp at he
  | failed =>
    cases hb with
    | member _ => simp at he
    | claimed _ => simp at he
    | failed => rw [List.append_cancel_left he]
    | refused => simp at he
  | refused =>
    cases hb with
    | member _ => simp at he
    | claimed _ => simp at he
    | failed => simp at he
    | refused => rw [List.append_cancel_left he]

/-! ## What is in it -/

theorem pairwise₂_snoc {α β : Type} {R : α → β → Prop} {l : List α} {l' : List β} (h : Pairwise₂ R l l') {k : List α} {k' : List β} (hk : Pairwise₂ R k k') : Pairwise₂ R (l ++ k) (l' ++ k') := by
  induction h with
  | nil => exact hk
  | cons h _ ih => exact .cons h ih

/-- The partitions, as they are told. -/
def toldAs (l : List TopicPartition) : List (Str × Int) := l.map fun p => (p.1, p.2.toInt)

structure ReceiverInv (level : Nat) (r : Receiver) (notices : List ReceiverNotice) : Prop where
  lines : Pairwise₂ NoticeText r.log notices
  running : ∀ claims running, r.phase = .working claims running → (∀ p ∈ running, p ∈ claims) ∧ (debugLevel ≤ level → (toldPartitions notices).Perm (toldAs claims))
  failures : warnLevel ≤ level → toldFailures notices = r.failures

theorem toldPartitions_claims (notices : List ReceiverNotice) (l : List TopicPartition) (g : Int) :
    toldPartitions (notices ++ .member g :: l.map fun p => .claimed p.1 p.2.toInt) = toldAs l := by
  unfold toldPartitions
  rw [List.foldl_append, List.foldl_cons, List.foldl_map]
  suffices key : ∀ acc : List (Str × Int), l.foldl (fun x y => x ++ [(y.1, y.2.toInt)]) acc = acc ++ toldAs l from key []
  unfold toldAs
  induction l with
  | nil => simp
  | cons p l ih => intro acc; rw [List.foldl_cons, ih]; simp

theorem toldPartitions_failed (notices : List ReceiverNotice) (e : Str) : toldPartitions (notices ++ [.failed e]) = toldPartitions notices := by
  unfold toldPartitions; rw [List.foldl_append]; rfl

theorem toldPartitions_refused (notices : List ReceiverNotice) (e : Str) : toldPartitions (notices ++ [.refused e]) = toldPartitions notices := by
  unfold toldPartitions; rw [List.foldl_append]; rfl

theorem setupLines_text (g : Int64) (range : List (Str × List Int64)) :
    Pairwise₂ NoticeText (setupLines g range) (.member g.toInt :: (partitionsOf range).map fun p => .claimed p.1 p.2.toInt) := by
  refine .cons (.member (encodeNumber_spec g).1) ?_
  unfold partitionsOf
  induction range with
  | nil => exact .nil
  | cons e range ih =>
    rw [List.flatMap_cons, List.flatMap_cons, List.map_append]
    refine pairwise₂_snoc ?_ ih
    rw [List.map_map]
    induction e.2 with
    | nil => exact .nil
    | cons p l ih => exact .cons (.claimed (encodeNumber_spec p).1) ih

theorem consumeLog_text {v : List UInt8} {line : Str} (h : consumeLog v = some line) : ∃ e, NoticeText line (.refused e) := by
  unfold consumeLog at h
  cases hd : binaryDecodeE v with
  | ok p => rw [hd] at h; cases h
  | error e =>
    rw [hd] at h
    cases h
    have := NoticeText.refused (e := b!"deserialize avro message: " ++ e.text)
    exact ⟨_, this⟩

theorem receiver_inv {level : Nat} {r : Receiver} (h : Receiver.Steps level {} r) : ∃ notices, ReceiverInv level r notices := by
  induction h with
  | refl => exact ⟨[], .nil, fun _ _ h => (nomatch h), fun _ => rfl⟩
  | step _ hs ih =>
    obtain ⟨notices, h1, h2, h3⟩ := ih
    cases hs with
    | finish | join | joinEnds | leave => exact ⟨notices, h1, fun _ _ h => (nomatch h), h3⟩
    | close => exact ⟨notices, h1, h2, h3⟩
    | accept => exact ⟨notices, h1, h2, h3⟩
    | joinFails err _ | leaveFails err _ =>
      by_cases hl : warnLevel ≤ level
      · refine ⟨notices ++ [.failed err], ?_, fun _ _ h => (nomatch h), fun _ => ?_⟩
        · dsimp only [written]
          rw [if_pos hl]
          exact pairwise₂_snoc h1 (.cons .failed .nil)
        · unfold toldFailures at h3 ⊢
          rw [List.countP_append, h3 hl]
          rfl
      · refine ⟨notices, ?_, fun _ _ h => (nomatch h), fun h => absurd h hl⟩
        dsimp only [written]
        rw [if_neg hl]
        exact h1
    | @setup g claims range _ hr =>
      have hp : (partitionsOf range).Perm (partitionsOf claims.toList) := List.Perm.flatMap_right _ hr
      by_cases hl : debugLevel ≤ level
      · refine ⟨notices ++ .member g.toInt :: (partitionsOf range).map fun p => .claimed p.1 p.2.toInt, ?_, ?_, ?_⟩
        · dsimp only [written]
          rw [if_pos hl]
          exact pairwise₂_snoc h1 (setupLines_text g range)
        · intro _ _ h
          cases h
          refine ⟨fun _ h => h, fun _ => ?_⟩
          rw [toldPartitions_claims]
          exact hp.map _
        · intro hw
          rw [← h3 hw]
          unfold toldFailures
          rw [List.countP_append, List.countP_cons, List.countP_map]
          simp
      · refine ⟨notices, ?_, ?_, h3⟩
        · dsimp only [written]
          rw [if_neg hl]
          exact h1
        · intro _ _ h
          cases h
          exact ⟨fun _ h => h, fun h => absurd h hl⟩
    | refuse hph _ hv =>
      obtain ⟨e, he⟩ := consumeLog_text hv
      by_cases hl : warnLevel ≤ level
      · refine ⟨notices ++ [.refused e], ?_, ?_, fun _ => ?_⟩
        · dsimp only [written]
          rw [if_pos hl]
          exact pairwise₂_snoc h1 (.cons he .nil)
        · intro c l h
          obtain ⟨a, b⟩ := h2 c l h
          exact ⟨a, fun hd => by rw [toldPartitions_refused]; exact b hd⟩
        · unfold toldFailures at h3 ⊢
          rw [List.countP_append, h3 hl]
          rfl
      · refine ⟨notices, ?_, h2, fun h => absurd h hl⟩
        dsimp only [written]
        rw [if_neg hl]
        exact h1
    | claimEnd hph =>
      refine ⟨notices, h1, fun _ _ h => ?_, h3⟩
      cases h
      obtain ⟨a, b⟩ := h2 _ _ hph
      refine ⟨fun p hp => a p ?_, b⟩
      rcases List.mem_append.mp hp with hp | hp
      · exact List.mem_append_left _ hp
      · exact List.mem_append_right _ (List.mem_cons_of_mem _ hp)

/-- C156, partial: at the level Debug, the partitions that are told behind the last line about the group are those of the session, as long as it lasts: each partition that is read is one of them.
Missing: nothing says that the session has ended (`C156_ended`). -/
theorem C156_partial {level : Nat} (hl : debugLevel ≤ level) {r : Receiver} (h : Receiver.Steps level {} r) {claims running : List TopicPartition} (hr : r.phase = .working claims running) :
    ∃ notices, Pairwise₂ NoticeText r.log notices ∧ (toldPartitions notices).Perm (claims.map fun p => (p.1, p.2.toInt)) ∧ ∀ p ∈ running, (p.1, p.2.toInt) ∈ toldPartitions notices := by
  obtain ⟨notices, h1, h2, -⟩ := receiver_inv h
  obtain ⟨a, b⟩ := h2 _ _ hr
  exact ⟨notices, h1, b hl, fun p hp => (b hl).symm.subset (List.mem_map_of_mem (a p hp))⟩

/-- C156: at the level of warnings or above, every session that ended with an error is told exactly once. -/
theorem C156_failures {level : Nat} (hl : warnLevel ≤ level) {r : Receiver} (h : Receiver.Steps level {} r) :
    ∃ notices, Pairwise₂ NoticeText r.log notices ∧ toldFailures notices = r.failures := by
  obtain ⟨notices, h1, -, h3⟩ := receiver_inv h
  exact ⟨notices, h1, h3 hl⟩

theorem Receiver.Steps.trans {level : Nat} {r q s : Receiver} (h : r.Steps level q) (h' : q.Steps level s) : r.Steps level s := by
  induction h' with
  | refl => exact h
  | step _ hs ih => exact .step ih hs

/-- C156 is false: from every state in a session, it can end without a line. The log, at any level, is the same while the partitions are read, and after that, when they are not. -/
theorem C156_ended {level : Nat} {r : Receiver} (h : Receiver.Steps level {} r) {claims running : List TopicPartition} (hr : r.phase = .working claims running) :
    ∃ q, Receiver.Steps level {} q ∧ q.phase = .select ∧ q.log = r.log := by
  induction running generalizing r with
  | nil => exact ⟨_, .step h (.leave hr), rfl, rfl⟩
  | cons p running ih =>
    obtain ⟨q, h1, h2, h3⟩ := ih (.step h (.claimEnd (before := []) hr)) rfl
    exact ⟨q, h1, h2, h3⟩

/-- Two partitions. -/
def twoClaims : SessionClaims := (∅ : SessionClaims).insert b!"spans" [0, 1]

theorem twoClaims_toList : twoClaims.toList = [(b!"spans", [0, 1])] := by decide +kernel

/-- C156: nor can one tell from the log which partition has a message that cannot be decoded: two histories with the same log, in which it comes from different partitions. -/
theorem C156_which (level : Nat) : ∃ r q, Receiver.Steps level {} r ∧ Receiver.Steps level {} q ∧ r.log = q.log ∧
    r.messages = [((b!"spans", 0), [2])] ∧ q.messages = [((b!"spans", 1), [2])] ∧ (consumeLog [2]).isSome := by
  have hc : (consumeLog [2]).isSome := by decide +kernel
  obtain ⟨line, hline⟩ := Option.isSome_iff_exists.mp hc
  have s := Receiver.Steps.step (.step (.refl (level := level) (r := {})) (.join rfl rfl)) (.setup 1 (claims := twoClaims) rfl (.refl _))
  refine ⟨_, _, .step s (.refuse (p := (b!"spans", 0)) rfl ?_ hline), .step s (.refuse (p := (b!"spans", 1)) rfl ?_ hline), rfl, rfl, rfl, hc⟩
  · rw [twoClaims_toList]; decide
  · rw [twoClaims_toList]; decide

/-- C156: while the group cannot be joined, the log grows without any bound: there is no pause between two attempts. -/
theorem C156_flood {level : Nat} (hl : warnLevel ≤ level) (err : Str) (n : Nat) : ∃ r, Receiver.Steps level {} r ∧ r.log = List.replicate n (sessionError err) ∧ r.messages = [] ∧ r.phase = .select ∧ r.cancelled = false := by
  induction n with
  | zero => exact ⟨_, .refl, rfl, rfl, rfl, rfl⟩
  | succ n ih =>
    obtain ⟨r, h1, h2, h3, h4, h5⟩ := ih
    refine ⟨_, .step (.step h1 (.join h4 h5)) (.joinFails err rfl), ?_, h3, rfl, h5⟩
    dsimp only [written]
    rw [if_pos hl, h2, List.replicate_succ']

/-- A session with two partitions, and the lines at the level Debug. -/
theorem C156_witness : ∃ r, Receiver.Steps debugLevel {} r ∧ r.log = [b!"Member of consumer group with generation id 7", b!"  * claimed spans:0", b!"  * claimed spans:1"] ∧
    r.phase = .working [(b!"spans", 0), (b!"spans", 1)] [(b!"spans", 1)] := by
  have s := Receiver.Steps.step (.step (.refl (level := debugLevel) (r := {})) (.join rfl rfl)) (.setup 7 (claims := twoClaims) rfl (.refl _))
  rw [twoClaims_toList] at s
  exact ⟨_, .step s (.claimEnd (before := []) rfl), by decide +kernel, rfl⟩

/-- C156 is false: with the log of `C156_witness`, a partition is read, or none. -/
theorem C156_fails : ∃ r q, Receiver.Steps debugLevel {} r ∧ Receiver.Steps debugLevel {} q ∧ r.log = q.log ∧ r.phase = .working [(b!"spans", 0), (b!"spans", 1)] [(b!"spans", 1)] ∧ q.phase = .select := by
  obtain ⟨r, h1, -, h3⟩ := C156_witness
  obtain ⟨q, h4, h5, h6⟩ := C156_ended h1 h3
  exact ⟨r, q, h1, h4, h6.symm, h3, h5⟩

end Verif
