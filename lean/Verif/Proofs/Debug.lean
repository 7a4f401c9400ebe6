import Verif.Spec.Debug
import Verif.Proofs.Correct
import Verif.Proofs.Maps

namespace Verif

open Spec

/-! ## Termination: a structural version -/

/-- The lines for a node that is `left` levels above the deepest one. -/
def subtreeLines (spans : List Span) : (left : Nat) → Nat → List LogLine
  | 0, node =>
    match spans[node]? with
    | none => []
    | some n => .node 6 n :: if (childrenOf spans n.id).length = 0 then [] else [.deeper 6]
  | left + 1, node =>
    match spans[node]? with
    | none => []
    | some n => .node (5 - left) n :: (((childrenOf spans n.id).take 32).flatMap (subtreeLines spans left) ++
        if 32 < (childrenOf spans n.id).length then [.more (5 - left) ((childrenOf spans n.id).length - 32 + 1)] else [])

theorem printChildren_eq {print : Nat → Option (List LogLine)} {f : Nat → List LogLine} {level count : Nat} (hl : level ≠ 6)
    (l : List Nat) (hp : ∀ c ∈ l, print c = some (f c)) (idx : Nat) (hi : idx ≤ 32) (hc : count = idx + l.length) :
    printChildren print level count idx l =
      some ((l.take (32 - idx)).flatMap f ++ if 32 < count then [.more level ((count : Int) - 32 + 1)] else []) := by
  induction l generalizing idx with
  | nil =>
    have : ¬ 32 < count := by simp at hc; omega
    simp [printChildren, this]
  | cons c rest ih =>
    rw [printChildren, if_neg (show ¬ level = maxLevel from hl)]
    simp only [List.length_cons] at hc
    by_cases h : idx = 32
    · rw [if_pos (show idx = maxChildCount from h)]
      have h1 : 32 < count := by omega
      simp [h, h1, maxChildCount]
    · rw [if_neg (show ¬ idx = maxChildCount from h), hp c (by simp)]
      simp only
      rw [ih (fun c hc => hp c (by simp [hc])) (idx + 1) (by omega) (by omega)]
      have h2 : 32 - idx = (32 - (idx + 1)) + 1 := by omega
      rw [h2, List.take_succ_cons]
      simp

theorem printNode_eq (spans : List Span) (left : Nat) (hleft : left ≤ 6) (fuel : Nat) (hf : left < fuel) (node : Nat) :
    printNode spans fuel node (6 - left) = some (subtreeLines spans left node) := by
  induction left generalizing fuel node with
  | zero =>
    obtain ⟨fuel, rfl⟩ : ∃ k, fuel = k + 1 := ⟨fuel - 1, by omega⟩
    rw [printNode, subtreeLines]
    cases spans[node]? with
    | none => rfl
    | some n =>
      simp only
      cases childrenOf spans n.id with
      | nil => simp [printChildren]
      | cons c l => simp [printChildren, maxLevel]
  | succ left ih =>
    obtain ⟨fuel, rfl⟩ : ∃ k, fuel = k + 1 := ⟨fuel - 1, by omega⟩
    rw [printNode, subtreeLines]
    cases spans[node]? with
    | none => rfl
    | some n =>
      simp only
      rw [printChildren_eq (f := subtreeLines spans left) (by omega) _ (fun c _ => ?_) 0 (by omega) (by omega)]
      · have : 6 - (left + 1) = 5 - left := by omega
        simp [this]
      · have : 6 - (left + 1) + 1 = 6 - left := by omega
        rw [this]
        exact ih (by omega) fuel (by omega) c

/-- All lines but the last one. -/
def rootLines (spans : List Span) (trace : Id) (idx : Nat) (l : List Nat) : List LogLine :=
  (l.zipIdx idx).flatMap fun e => .root trace e.2 :: subtreeLines spans 6 e.1

theorem printRoots_eq (spans : List Span) (fuel : Nat) (hf : 7 ≤ fuel) (trace : Id) (l : List Nat) (idx : Nat) :
    printRoots spans fuel trace idx l = some (rootLines spans trace idx l) := by
  induction l generalizing idx with
  | nil => rfl
  | cons r rest ih =>
    rw [printRoots, printNode_eq spans 6 (by omega) fuel (by omega) r]
    simp only
    rw [ih]
    simp [rootLines, List.zipIdx_cons]

/-! ## Children -/

theorem range_filter_get (l : List Span) (p : Span → Bool) :
    ((List.range l.length).filter fun i => match l[i]? with | some s => p s | none => false).map (l[·]?) = (l.filter p).map some := by
  induction l using list_snoc_induction with
  | h0 => rfl
  | h1 l x ih =>
    rw [List.length_append, List.length_singleton, List.range_succ, List.filter_append, List.map_append, List.filter_append, List.map_append, ← ih]
    congr 1
    · have : ∀ i ∈ List.range l.length, (l ++ [x])[i]? = l[i]? := by
        intro i hi
        exact List.getElem?_append_left (List.mem_range.mp hi)
      rw [List.filter_congr (q := fun i => match l[i]? with | some s => p s | none => false)]
      · apply List.map_congr_left
        intro i hi
        exact this i (List.mem_filter.mp hi).1
      · intro i hi
        rw [this i hi]
    · have : (l ++ [x])[l.length]? = some x := by simp
      simp only [List.filter_cons, List.filter_nil, this]
      cases p x <;> simp

theorem childrenOf_siblings (spans : List Span) (id : Id) :
    (childrenOf spans id).map (spans[·]?) = (siblings spans id).map some := by
  unfold childrenOf siblings
  refine (range_filter_get spans fun s => s.parent == id && !s.isRoot).trans ?_
  congr 1
  apply List.filter_congr
  intro s _
  rw [Bool.eq_iff_iff]
  simp [Span.isRoot]

theorem childrenOf_length (spans : List Span) (id : Id) : (childrenOf spans id).length = (siblings spans id).length := by
  have := congrArg List.length (childrenOf_siblings spans id)
  simpa using this

theorem mem_take_siblings {spans : List Span} {id : Id} {k : Nat} {s : Span} :
    s ∈ (siblings spans id).take k ↔ ∃ c ∈ (childrenOf spans id).take k, spans[c]? = some s := by
  have h := congrArg (List.take k) (childrenOf_siblings spans id)
  rw [← List.map_take, ← List.map_take] at h
  constructor
  · intro hs
    have : some s ∈ ((siblings spans id).take k).map some := List.mem_map.mpr ⟨s, hs, rfl⟩
    rw [← h] at this
    obtain ⟨c, hc, e⟩ := List.mem_map.mp this
    exact ⟨c, hc, e⟩
  · rintro ⟨c, hc, e⟩
    have : spans[c]? ∈ ((childrenOf spans id).take k).map (spans[·]?) := List.mem_map.mpr ⟨c, hc, rfl⟩
    rw [h, e] at this
    obtain ⟨s', hs', e'⟩ := List.mem_map.mp this
    cases e'
    exact hs'

/-! ## What is printed -/

theorem printed_append (a b : List LogLine) : printed (a ++ b) = printed a ++ printed b := List.filterMap_append ..

theorem printed_flatMap {α : Type} (l : List α) (f : α → List LogLine) : printed (l.flatMap f) = l.flatMap fun x => printed (f x) := by
  induction l with
  | nil => rfl
  | cons x l ih => simp only [List.flatMap_cons, printed_append, ih]

/-- The spans shown below and including a given one. -/
inductive ShownBelow (spans : List Span) (d₀ : Nat) (n : Span) : Nat → Span → Prop
  | self : ShownBelow spans d₀ n d₀ n
  | child {d p c} : ShownBelow spans d₀ n d p → d < 6 → c ∈ (siblings spans p.id).take 32 → ShownBelow spans d₀ n (d + 1) c

theorem ShownBelow.head {spans : List Span} {d₀ d : Nat} {n c s : Span} (h : d₀ < 6) (hc : c ∈ (siblings spans n.id).take 32)
    (hs : ShownBelow spans (d₀ + 1) c d s) : ShownBelow spans d₀ n d s := by
  induction hs with
  | self => exact .child .self h hc
  | child _ hd hc ih => exact .child ih hd hc

theorem ShownBelow.split {spans : List Span} {d₀ d : Nat} {n s : Span} (hs : ShownBelow spans d₀ n d s) :
    (d = d₀ ∧ s = n) ∨ (d₀ < 6 ∧ ∃ c ∈ (siblings spans n.id).take 32, ShownBelow spans (d₀ + 1) c d s) := by
  induction hs with
  | self => exact .inl ⟨rfl, rfl⟩
  | child _ hd hc ih =>
    right
    rcases ih with ⟨rfl, rfl⟩ | ⟨h, c', hc', ih⟩
    · exact ⟨hd, _, hc, .self⟩
    · exact ⟨h, c', hc', .child ih hd hc⟩

theorem mem_printed_subtree {spans : List Span} {left : Nat} (hl : left ≤ 6) {i : Nat} {n : Span} (hi : spans[i]? = some n) {d : Nat} {s : Span} :
    (d, s) ∈ printed (subtreeLines spans left i) ↔ ShownBelow spans (6 - left) n d s := by
  induction left generalizing i n with
  | zero =>
    rw [subtreeLines, hi]
    simp only
    have : printed (LogLine.node 6 n :: if (childrenOf spans n.id).length = 0 then [] else [.deeper 6]) = [(6, n)] := by
      split <;> rfl
    rw [this]
    simp only [List.mem_singleton, Prod.mk.injEq]
    constructor
    · rintro ⟨rfl, rfl⟩; exact .self
    · intro h
      rcases h.split with h | ⟨h, _⟩
      · exact h
      · omega
  | succ left ih =>
    rw [subtreeLines, hi]
    simp only
    have : ∀ rest, printed (LogLine.node (5 - left) n :: rest) = (5 - left, n) :: printed rest := fun _ => rfl
    rw [this, printed_append, printed_flatMap]
    have hm : printed (if 32 < (childrenOf spans n.id).length then [.more (5 - left) ((childrenOf spans n.id).length - 32 + 1)] else []) = [] := by
      split <;> rfl
    rw [hm, List.append_nil, List.mem_cons, List.mem_flatMap]
    have e1 : 6 - (left + 1) = 5 - left := by omega
    have e2 : 5 - left + 1 = 6 - left := by omega
    rw [e1]
    constructor
    · rintro (h | ⟨c, hc, h⟩)
      · cases h; exact .self
      · have hc' := List.mem_of_mem_take hc
        obtain ⟨cs, hcs, _⟩ := mem_childrenOf.mp hc'
        have := (ih (by omega) hcs).mp h
        rw [← e2] at this
        exact this.head (by omega) (mem_take_siblings.mpr ⟨c, hc, hcs⟩)
    · intro h
      rcases h.split with ⟨rfl, rfl⟩ | ⟨_, cs, hcs, h⟩
      · exact .inl rfl
      · right
        obtain ⟨c, hc, e⟩ := mem_take_siblings.mp hcs
        rw [e2] at h
        exact ⟨c, hc, (ih (by omega) e).mpr h⟩

/-- Every line about children that were left out. -/
theorem mem_more_subtree {spans : List Span} {left : Nat} (hl : left ≤ 6) {i : Nat} {n : Span} (hi : spans[i]? = some n) {d : Nat} {k : Int}
    (h : .more d k ∈ subtreeLines spans left i) :
    ∃ p, ShownBelow spans (6 - left) n d p ∧ d < 6 ∧ 32 < (siblings spans p.id).length ∧ k = ((siblings spans p.id).length : Int) - 32 + 1 := by
  induction left generalizing i n with
  | zero =>
    rw [subtreeLines, hi] at h
    simp only at h
    split at h <;> simp at h
  | succ left ih =>
    rw [subtreeLines, hi] at h
    have e1 : 6 - (left + 1) = 5 - left := by omega
    have e2 : 5 - left + 1 = 6 - left := by omega
    rw [e1]
    simp only [List.mem_cons, reduceCtorEq, false_or, List.mem_append, List.mem_flatMap] at h
    rcases h with ⟨c, hc, h⟩ | h
    · have hc' := List.mem_of_mem_take hc
      obtain ⟨cs, hcs, _⟩ := mem_childrenOf.mp hc'
      obtain ⟨p, hp, h1⟩ := ih (by omega) hcs h
      rw [← e2] at hp
      exact ⟨p, hp.head (by omega) (mem_take_siblings.mpr ⟨c, hc, hcs⟩), h1⟩
    · rw [childrenOf_length] at h
      split at h
      · next h1 =>
        simp only [List.mem_singleton, LogLine.more.injEq] at h
        obtain ⟨rfl, rfl⟩ := h
        exact ⟨n, .self, by omega, h1, rfl⟩
      · simp at h

theorem subtree_nodup {spans : List Span} {r : Span} (hs : SortedDesc spans) (hr : IsRootOf spans r) (left : Nat) :
    ∀ {i : Nat} {n : Span} {anc : List Span}, spans[i]? = some n → Path spans r anc n →
      ((printed (subtreeLines spans left i)).map Prod.snd).Nodup ∧
      ∀ s ∈ (printed (subtreeLines spans left i)).map Prod.snd, ∃ j, spans[j]? = some s ∧ Below spans r n anc j := by
  induction left with
  | zero =>
    intro i n anc hi hp
    rw [subtreeLines, hi]
    simp only
    have : printed (LogLine.node 6 n :: if (childrenOf spans n.id).length = 0 then [] else [.deeper 6]) = [(6, n)] := by
      split <;> rfl
    rw [this]
    refine ⟨by simp, ?_⟩
    intro s h
    simp only [List.map_cons, List.map_nil, List.mem_singleton] at h
    subst h
    exact ⟨i, hi, (below_cases hs hi hp i).mpr (.inl rfl)⟩
  | succ left ih =>
    intro i n anc hi hp
    rw [subtreeLines, hi]
    simp only
    have hcons : ∀ rest, printed (LogLine.node (5 - left) n :: rest) = (5 - left, n) :: printed rest := fun _ => rfl
    rw [hcons, printed_append, printed_flatMap]
    have hm : printed (if 32 < (childrenOf spans n.id).length then [.more (5 - left) ((childrenOf spans n.id).length - 32 + 1)] else []) = [] := by
      split <;> rfl
    rw [hm, List.append_nil, List.map_cons, List.map_flatMap]
    have hchild : ∀ c ∈ (childrenOf spans n.id).take 32, ∃ cs, spans[c]? = some cs ∧ Path spans r (n :: anc) cs := by
      intro c hc
      obtain ⟨cs, hcs, h1, h2⟩ := mem_childrenOf.mp (List.mem_of_mem_take hc)
      exact ⟨cs, hcs, .child hp (List.mem_of_getElem? hcs) h1 h2⟩
    refine ⟨List.nodup_cons.mpr ⟨?_, ?_⟩, ?_⟩
    · intro hmem
      obtain ⟨c, hc, h⟩ := List.mem_flatMap.mp hmem
      obtain ⟨cs, hcs, hpc⟩ := hchild c hc
      obtain ⟨j, hj, hb⟩ := (ih hcs hpc).2 n h
      have := idx_unique hs hj hi
      subst this
      exact not_below_child hs hr hi hp hb
    · rw [List.Nodup, List.flatMap, List.pairwise_flatten]
      constructor
      · intro l hl
        obtain ⟨c, hc, rfl⟩ := List.mem_map.mp hl
        obtain ⟨cs, hcs, hpc⟩ := hchild c hc
        exact (ih hcs hpc).1
      · rw [List.pairwise_map]
        refine List.Pairwise.imp_of_mem ?_ ((childrenOf_nodup spans n.id).sublist (List.take_sublist 32 _))
        intro a b ha hb hab x hx y hy e
        subst e
        obtain ⟨as, has, hpa⟩ := hchild a ha
        obtain ⟨bs, hbs, hpb⟩ := hchild b hb
        obtain ⟨j, hj, h1⟩ := (ih has hpa).2 x hx
        obtain ⟨j', hj', h2⟩ := (ih hbs hpb).2 x hy
        have := idx_unique hs hj hj'
        subst this
        have := below_disjoint hs hr h1 h2
        subst this
        exact hab (idx_unique hs has hbs)
    · intro s h
      rcases List.mem_cons.mp h with rfl | h
      · exact ⟨i, hi, (below_cases hs hi hp i).mpr (.inl rfl)⟩
      · obtain ⟨c, hc, h⟩ := List.mem_flatMap.mp h
        obtain ⟨cs, hcs, hpc⟩ := hchild c hc
        obtain ⟨j, hj, hb⟩ := (ih hcs hpc).2 s h
        exact ⟨j, hj, (below_cases hs hi hp j).mpr (.inr ⟨c, List.mem_of_mem_take hc, cs, hcs, hb⟩)⟩

/-- A span is below one root only. -/
theorem root_unique {spans : List Span} (hu : UniqueIds spans) {r r' s : Span} {l l' : List Span} (hr : IsRootOf spans r) (hr' : IsRootOf spans r')
    (h : Path spans r l s) (h' : Path spans r' l' s) : r = r' := by
  have noparent : ∀ {r x p : Span}, IsRootOf spans r → p ∈ spans → r.parent = p.id → r.parent ≠ r.id → False := by
    intro r x p hr hp h1 h2
    rcases hr.2 with h | h
    · exact h2 h
    · exact h p hp h1.symm
  induction h generalizing l' with
  | root =>
    cases h' with
    | root => rfl
    | child hp _ h1 h2 => exact (noparent (x := r) hr (Path.mem hp hr'.1) h1 h2).elim
  | child hp hm h1 h2 ih =>
    cases h' with
    | root => exact (noparent (x := r) hr' (Path.mem hp hr.1) h1 h2).elim
    | child hp' _ h1' h2' =>
      have : _ = _ := hu _ (Path.mem hp hr.1) _ (Path.mem hp' hr'.1) (h1.symm.trans h1')
      subst this
      exact ih hp'

/-- At most one line for each span, and one for the children left out. -/
theorem subtree_length (spans : List Span) (left i : Nat) :
    (subtreeLines spans left i).length ≤ 2 * (printed (subtreeLines spans left i)).length := by
  induction left generalizing i with
  | zero =>
    rw [subtreeLines]
    cases spans[i]? with
    | none => simp
    | some n => simp only; split <;> simp [printed]
  | succ left ih =>
    rw [subtreeLines]
    cases spans[i]? with
    | none => simp
    | some n =>
      simp only
      have hcons : ∀ rest, printed (LogLine.node (5 - left) n :: rest) = (5 - left, n) :: printed rest := fun _ => rfl
      rw [hcons, printed_append, printed_flatMap]
      have hfm : ∀ l : List Nat, (l.flatMap (subtreeLines spans left)).length ≤ 2 * (l.flatMap fun x => printed (subtreeLines spans left x)).length := by
        intro l
        induction l with
        | nil => simp
        | cons x l ihl =>
          simp only [List.flatMap_cons, List.length_append]
          have := ih x
          omega
      have := hfm ((childrenOf spans n.id).take 32)
      simp only [List.length_cons, List.length_append]
      split <;> simp only [List.length_singleton, List.length_nil] <;> omega

end Verif
