import Verif.Spec.Lru
import Verif.Proofs.Maps

/-!
# The pointer structure of the LRU cache represents a list
-/

namespace Verif

variable {δ : Type}

theorem ne_of_mem_of_not_mem' {α} {l : List α} {x y : α} (hx : x ∈ l) (hy : y ∉ l) : x ≠ y := fun h => hy (h ▸ hx)

theorem perm_sum_int {a b : List Int} (h : a.Perm b) : a.sum = b.sum := by
  induction h with
  | nil => rfl
  | cons x _ ih => simp [ih]
  | swap x y l => simp only [List.sum_cons]; omega
  | trans _ _ h1 h2 => exact h1.trans h2

/-- The nodes of the list are linked in both directions; `p` is in front of it and `q` behind it. -/
def Seg (h : Nodes δ) : Option Nat → List Nat → Option Nat → Prop
  | _, [], _ => True
  | p, x :: xs, q => (h x).prev = p ∧ (h x).next = xs.head?.or q ∧ Seg h (some x) xs q

theorem Seg.append {h : Nodes δ} {a b : List Nat} {p q : Option Nat} :
    Seg h p (a ++ b) q ↔ Seg h p a (b.head?.or q) ∧ Seg h (a.getLast?.or p) b q := by
  induction a generalizing p with
  | nil => simp [Seg]
  | cons x xs ih =>
    simp only [List.cons_append, Seg, ih]
    have e1 : (xs ++ b).head?.or q = xs.head?.or (b.head?.or q) := by
      cases xs <;> simp
    have e2 : xs.getLast?.or (some x) = (x :: xs).getLast?.or p := by
      rw [List.getLast?_cons]
      cases xs.getLast? <;> simp
    rw [e1, e2]
    constructor
    · rintro ⟨h1, h2, h3, h4⟩; exact ⟨⟨h1, h2, h3⟩, h4⟩
    · rintro ⟨⟨h1, h2, h3⟩, h4⟩; exact ⟨h1, h2, h3, h4⟩

theorem Seg.congr {h h' : Nodes δ} {l : List Nat} {p q : Option Nat}
    (hc : ∀ x ∈ l, (h' x).prev = (h x).prev ∧ (h' x).next = (h x).next) (hs : Seg h p l q) : Seg h' p l q := by
  induction l generalizing p with
  | nil => trivial
  | cons x xs ih =>
    obtain ⟨h1, h2, h3⟩ := hs
    have hx := hc x (by simp)
    exact ⟨hx.1.trans h1, hx.2.trans h2, ih (fun y hy => hc y (List.mem_cons_of_mem _ hy)) h3⟩

theorem setPrev_ne {h : Nodes δ} {e x : Nat} {p : Option Nat} (hne : x ≠ e) : h.setPrev e p x = h x := by
  simp [Nodes.setPrev, hne]

theorem setNext_ne {h : Nodes δ} {e x : Nat} {p : Option Nat} (hne : x ≠ e) : h.setNext e p x = h x := by
  simp [Nodes.setNext, hne]

theorem setPrev_next {h : Nodes δ} {e x : Nat} {p : Option Nat} : (h.setPrev e p x).next = (h x).next := by
  unfold Nodes.setPrev; split
  · next hx => rw [hx]
  · rfl

theorem setNext_prev {h : Nodes δ} {e x : Nat} {p : Option Nat} : (h.setNext e p x).prev = (h x).prev := by
  unfold Nodes.setNext; split
  · next hx => rw [hx]
  · rfl

theorem setPrev_prev {h : Nodes δ} {e : Nat} {p : Option Nat} : (h.setPrev e p e).prev = p := by simp [Nodes.setPrev]

theorem setNext_next {h : Nodes δ} {e : Nat} {p : Option Nat} : (h.setNext e p e).next = p := by simp [Nodes.setNext]

/-- The strings of the entries are untouched. -/
def SameStrings (h h' : Nodes δ) : Prop := ∀ x, (h' x).value = (h x).value ∧ (h' x).data = (h x).data

theorem SameStrings.refl (h : Nodes δ) : SameStrings h h := fun _ => ⟨rfl, rfl⟩

theorem SameStrings.trans {h h' h'' : Nodes δ} (h1 : SameStrings h h') (h2 : SameStrings h' h'') : SameStrings h h'' :=
  fun x => ⟨(h2 x).1.trans (h1 x).1, (h2 x).2.trans (h1 x).2⟩

theorem sameStrings_setPrev (h : Nodes δ) (e : Nat) (p : Option Nat) : SameStrings h (h.setPrev e p) := by
  intro x; unfold Nodes.setPrev; split
  · next hx => rw [hx]; exact ⟨rfl, rfl⟩
  · exact ⟨rfl, rfl⟩

theorem sameStrings_setNext (h : Nodes δ) (e : Nat) (p : Option Nat) : SameStrings h (h.setNext e p) := by
  intro x; unfold Nodes.setNext; split
  · next hx => rw [hx]; exact ⟨rfl, rfl⟩
  · exact ⟨rfl, rfl⟩

/-- Changing what is behind a list. -/
theorem Seg.setLast {h : Nodes δ} {a : List Nat} {x : Nat} {p q r : Option Nat} (hs : Seg h p (a ++ [x]) q) (hx : x ∉ a) :
    Seg (h.setNext x r) p (a ++ [x]) r := by
  rw [Seg.append] at hs ⊢
  refine ⟨hs.1.congr (fun y hy => ⟨setNext_prev, ?_⟩), ⟨setNext_prev.trans hs.2.1, setNext_next, trivial⟩⟩
  rw [setNext_ne (ne_of_mem_of_not_mem' hy hx)]

/-- Changing what is in front of a list. -/
theorem Seg.setFirst {h : Nodes δ} {b : List Nat} {x : Nat} {p q r : Option Nat} (hs : Seg h p (x :: b) q) (hx : x ∉ b) :
    Seg (h.setPrev x r) r (x :: b) q := by
  obtain ⟨_, h2, h3⟩ := hs
  refine ⟨setPrev_prev, setPrev_next.trans h2, h3.congr (fun y hy => ⟨?_, setPrev_next⟩)⟩
  rw [setPrev_ne (ne_of_mem_of_not_mem' hy hx)]

/-- The second part of `pushHead`: an entry that is not linked becomes the first one. -/
theorem push_spec {h : Nodes δ} {l : List Nat} {e : Nat} (hs : Seg h none l none) (hn : l.Nodup) (he : e ∉ l) :
    let h1 := match l.head? with
      | some x => h.setPrev x (some e)
      | none => h
    let h2 := (h1.setPrev e none).setNext e l.head?
    Seg h2 none (e :: l) none ∧ SameStrings h h2 := by
  dsimp only
  cases l with
  | nil =>
    refine ⟨⟨?_, ?_, trivial⟩, (sameStrings_setPrev _ _ _).trans (sameStrings_setNext _ _ _)⟩
    · rw [setNext_prev, setPrev_prev]
    · rw [setNext_next]; rfl
  | cons x xs =>
    rw [List.nodup_cons] at hn
    have h1 := hs.setFirst (r := some e) hn.1
    refine ⟨⟨?_, ?_, h1.congr ?_⟩, ((sameStrings_setPrev _ _ _).trans (sameStrings_setPrev _ _ _)).trans (sameStrings_setNext _ _ _)⟩
    · rw [setNext_prev, setPrev_prev]
    · rw [setNext_next]; simp
    · intro y hy
      have hye : y ≠ e := fun hye => he (hye ▸ hy)
      rw [setNext_ne hye, setPrev_ne hye]
      exact ⟨rfl, rfl⟩

/-- The first part of `pushHead`: an entry that is not the first one is taken out. -/
theorem unlink_spec {h : Nodes δ} {a b : List Nat} {e : Nat} (hs : Seg h none (a ++ e :: b) none) (hn : (a ++ e :: b).Nodup)
    (ha : a ≠ []) :
    let h1 := match (h e).prev with
      | some p => h.setNext p (h e).next
      | none => h
    let h2 := match (h1 e).next with
      | some n => h1.setPrev n (h1 e).prev
      | none => h1
    Seg h2 none (a ++ b) none ∧ SameStrings h h2 := by
  dsimp only
  obtain ⟨a, y, rfl⟩ : ∃ a' y, a = a' ++ [y] := ⟨a.dropLast, a.getLast ha, (List.dropLast_concat_getLast ha).symm⟩
  rw [Seg.append] at hs
  obtain ⟨h1, h2, h3, h4⟩ := hs
  have hprev : (h e).prev = some y := by rw [h2]; simp
  have hnext : (h e).next = b.head? := by rw [h3]; simp
  have hey : e ≠ y := by
    rintro rfl
    rw [List.nodup_append] at hn
    exact hn.2.2 e (by simp) e (by simp) rfl
  have hya : y ∉ a := by
    intro hy
    rw [List.nodup_append, List.nodup_append] at hn
    exact hn.1.2.2 y hy y (by simp) rfl
  have hyb : y ∉ b := by
    intro hy
    rw [List.nodup_append] at hn
    exact hn.2.2 y (by simp) y (by simp [hy]) rfl
  rw [hprev, hnext]
  dsimp only
  have s1 : Seg (h.setNext y b.head?) none (a ++ [y]) b.head? := h1.setLast hya
  have s2 : Seg (h.setNext y b.head?) (some e) b none := h4.congr (fun z hz => by
    rw [setNext_ne (ne_of_mem_of_not_mem' hz hyb)]; exact ⟨rfl, rfl⟩)
  rw [setNext_ne hey, hnext, hprev]
  cases b with
  | nil => exact ⟨by rw [List.append_nil]; exact s1, sameStrings_setNext _ _ _⟩
  | cons z zs =>
    dsimp only [List.head?_cons]
    have hzz : z ∉ zs := by
      rw [List.nodup_append, List.nodup_cons, List.nodup_cons] at hn
      exact hn.2.1.2.1
    have hza : ∀ w ∈ a ++ [y], w ≠ z := by
      rw [List.nodup_append] at hn
      intro w hw
      exact hn.2.2 w hw z (by simp)
    refine ⟨?_, (sameStrings_setNext _ _ _).trans (sameStrings_setPrev _ _ _)⟩
    rw [Seg.append]
    refine ⟨?_, ?_⟩
    · refine (Seg.congr ?_ s1)
      intro w hw
      rw [setPrev_ne (hza w hw)]; exact ⟨rfl, rfl⟩
    · have := s2.setFirst (r := some y) hzz
      simpa using this

theorem getLast?_cons_ne {α} (x : α) {l : List α} (h : l ≠ []) : (x :: l).getLast? = l.getLast? := by
  cases l with
  | nil => exact absurd rfl h
  | cons y ys => simp [List.getLast?_cons]

theorem pushHead_spec {h : Nodes δ} {ll : LinkedList} {l : List Nat} {e : Nat} (hh : ll.head = l.head?) (ht : ll.tail = l.getLast?)
    (hs : Seg h none l none) (hn : l.Nodup) (he : e ∈ l ∨ ((h e).prev = none ∧ (h e).next = none)) :
    (pushHead h ll e).2.head = some e ∧ (pushHead h ll e).2.tail = (e :: l.erase e).getLast? ∧
    Seg (pushHead h ll e).1 none (e :: l.erase e) none ∧ SameStrings h (pushHead h ll e).1 := by
  unfold pushHead
  by_cases hhead : ll.head = some e
  · rw [if_pos hhead]
    rw [hh] at hhead
    cases l with
    | nil => cases hhead
    | cons x xs =>
      have : x = e := Option.some.inj hhead
      subst this
      rw [List.erase_cons_head]
      exact ⟨hh.trans rfl, ht, hs, SameStrings.refl _⟩
  · rw [if_neg hhead]
    dsimp only
    by_cases hmem : e ∈ l
    · obtain ⟨a, b, rfl, hea⟩ := List.append_of_mem hmem |>.elim fun a h => h.elim fun b h => (⟨a, b, h, by
        intro hea
        rw [h, List.nodup_append] at hn
        exact hn.2.2 e hea e (by simp) rfl⟩ : ∃ a b, l = a ++ e :: b ∧ e ∉ a)
      have hane : a ≠ [] := by
        rintro rfl
        exact hhead (by rw [hh]; rfl)
      have herase : (a ++ e :: b).erase e = a ++ b := by
        rw [List.erase_append_right _ hea, List.erase_cons_head]
      have heb : e ∉ b := by
        rw [List.nodup_append, List.nodup_cons] at hn
        exact hn.2.1.1
      have hnab : (a ++ b).Nodup := by rw [← herase]; exact hn.erase e
      have U := unlink_spec hs hn hane
      dsimp only at U
      have hheq : ll.head = (a ++ b).head? := by
        rw [hh]; cases a with
        | nil => exact absurd rfl hane
        | cons x xs => rfl
      have P := push_spec U.1 hnab (e := e) (by simp [hea, heb])
      dsimp only at P
      rw [hheq, herase]
      refine ⟨rfl, ?_, P.1, U.2.trans P.2⟩
      have hprev : (h e).prev = a.getLast? := by
        rw [Seg.append] at hs
        rw [hs.2.1]; simp
      obtain ⟨a', y, rfl⟩ : ∃ a' y, a = a' ++ [y] := ⟨a.dropLast, a.getLast hane, (List.dropLast_concat_getLast hane).symm⟩
      rw [getLast?_cons_ne _ (by simp)]
      have htail : (if ll.tail = some e then (h e).prev else ll.tail) = (a' ++ [y] ++ b).getLast? := by
        rw [ht, hprev]
        cases b with
        | nil => simp
        | cons z zs =>
          have e1 : (a' ++ [y] ++ e :: z :: zs).getLast? = (z :: zs).getLast? := by
            simp [List.getLast?_append, List.getLast?_cons]
          have e2 : (a' ++ [y] ++ z :: zs).getLast? = (z :: zs).getLast? := by
            simp [List.getLast?_append, List.getLast?_cons]
          rw [e1, e2, if_neg]
          intro hl
          exact heb (List.mem_of_getLast? hl)
      rw [htail, if_neg (by simp)]
    · have hp := he.resolve_left hmem
      have herase : l.erase e = l := List.erase_of_not_mem hmem
      rw [hp.1]
      dsimp only
      rw [hp.2]
      dsimp only
      have P := push_spec hs hn hmem
      dsimp only at P
      rw [hh, herase]
      refine ⟨rfl, ?_, P.1, P.2⟩
      have htail : (if ll.tail = some e then none else ll.tail) = l.getLast? := by
        rw [ht, if_neg]
        intro hl
        exact hmem (List.mem_of_getLast? hl)
      rw [htail]
      cases l with
      | nil => rfl
      | cons x xs =>
        rw [getLast?_cons_ne e (l := x :: xs) (by simp), if_neg (by rw [List.getLast?_eq_none_iff]; simp)]

theorem dropTail_spec {h : Nodes δ} {ll : LinkedList} {l : List Nat} {e : Nat} (hh : ll.head = (l ++ [e]).head?) (ht : ll.tail = (l ++ [e]).getLast?)
    (hs : Seg h none (l ++ [e]) none) (hn : (l ++ [e]).Nodup) :
    (dropTail h ll).2.2 = some e ∧ (dropTail h ll).2.1.head = l.head? ∧ (dropTail h ll).2.1.tail = l.getLast? ∧
    Seg (dropTail h ll).1 none l none ∧ SameStrings h (dropTail h ll).1 := by
  unfold dropTail
  have ht' : ll.tail = some e := by rw [ht]; simp
  rw [ht']
  dsimp only
  rw [Seg.append] at hs
  have hprev : (h e).prev = l.getLast? := by rw [hs.2.1]; simp
  by_cases hl : l = []
  · subst hl
    rw [hprev]
    dsimp only [List.getLast?_nil]
    rw [if_pos (by rw [hh]; rfl)]
    exact ⟨rfl, rfl, rfl, trivial, SameStrings.refl _⟩
  · obtain ⟨a, y, rfl⟩ : ∃ a' y, l = a' ++ [y] := ⟨l.dropLast, l.getLast hl, (List.dropLast_concat_getLast hl).symm⟩
    have hlast : (a ++ [y]).getLast? = some y := by simp
    rw [hprev, hlast]
    dsimp only
    have hhe : ¬ ll.head = some e := by
      rw [hh]
      intro hx
      rw [List.nodup_append] at hn
      have : e ∈ a ++ [y] := by
        rw [List.head?_append] at hx
        cases hy : (a ++ [y]).head? with
        | none => simp at hy
        | some z =>
          rw [hy] at hx
          simp only [Option.some_or, Option.some.injEq] at hx
          rw [← hx]
          exact List.mem_of_head? hy
      exact hn.2.2 e this e (by simp) rfl
    rw [if_neg hhe]
    have hya : y ∉ a := by
      rw [List.nodup_append, List.nodup_append] at hn
      intro hy
      exact hn.1.2.2 y hy y (by simp) rfl
    refine ⟨rfl, ?_, rfl, hs.1.setLast hya, sameStrings_setNext _ _ _⟩
    rw [hh, List.head?_append]
    simp

/-! ## The invariant -/

/-- The cache represents the list of entries `l`. -/
structure LruInv (c : Lru δ) (l : List Nat) : Prop where
  head : c.usage.head = l.head?
  tail : c.usage.tail = l.getLast?
  links : Seg c.nodes none l none
  nodup : l.Nodup
  below : ∀ a ∈ l, a < c.fresh
  map : ∀ (k : Str) (a : Nat), c.values[k]? = some a ↔ a ∈ l ∧ (c.nodes a).value = k
  count : c.count = l.length
  size : c.size = (l.map fun e => ((c.nodes e).value.length : Int)).sum

/-- The strings of a list of entries. -/
def Lru.strings (c : Lru δ) (l : List Nat) : List Str := l.map fun e => (c.nodes e).value

theorem LruInv.strings_nodup {c : Lru δ} {l : List Nat} (h : LruInv c l) : (c.strings l).Nodup := by
  unfold Lru.strings List.Nodup
  rw [List.pairwise_map]
  refine List.Pairwise.imp_of_mem ?_ h.nodup
  intro a b ha hb hne heq
  have h1 := (h.map _ a).mpr ⟨ha, rfl⟩
  have h2 := (h.map _ b).mpr ⟨hb, rfl⟩
  rw [heq, h2] at h1
  exact hne (Option.some.inj h1).symm

theorem LruInv.mem_strings {c : Lru δ} {l : List Nat} (h : LruInv c l) {k : Str} : k ∈ c.strings l ↔ ∃ a, c.values[k]? = some a := by
  unfold Lru.strings
  rw [List.mem_map]
  constructor
  · rintro ⟨a, ha, hk⟩; exact ⟨a, (h.map k a).mpr ⟨ha, hk⟩⟩
  · rintro ⟨a, ha⟩; exact ⟨a, (h.map k a).mp ha⟩

theorem LruInv.cost {c : Lru δ} {l : List Nat} (h : LruInv c l) : c.Size = Verif.cost (c.strings l) := by
  unfold Lru.Size Verif.cost Lru.strings Lru.itemOverhead
  rw [h.size, h.count, List.map_map]
  generalize c.nodes = n
  induction l with
  | nil => rfl
  | cons x xs ih =>
    simp only [List.map_cons, List.sum_cons, List.length_cons, Function.comp_apply]
    have : (xs.map ((fun s : Str => (s.length : Int) + 56) ∘ fun e => (n e).value)).sum =
        (xs.map fun e => ((n e).value.length : Int)).sum + xs.length * 56 := by
      clear ih h
      induction xs with
      | nil => rfl
      | cons y ys ih =>
        simp only [List.map_cons, List.sum_cons, List.length_cons, Function.comp_apply]
        rw [ih]; push_cast; omega
    rw [this]; push_cast; omega

theorem LruInv.new (m : Int) (d : δ) : LruInv (Lru.new m d) [] := by
  refine ⟨rfl, rfl, trivial, List.nodup_nil, fun _ h => (List.not_mem_nil h).elim, ?_, rfl, rfl⟩
  intro k a
  simp [Lru.new]

/-- Moving an entry to the front. -/
theorem LruInv.touch {c : Lru δ} {l : List Nat} (h : LruInv c l) {e : Nat} (he : e ∈ l) :
    LruInv { c with nodes := (pushHead c.nodes c.usage e).1, usage := (pushHead c.nodes c.usage e).2 } (e :: l.erase e) ∧
    SameStrings c.nodes (pushHead c.nodes c.usage e).1 := by
  obtain ⟨p1, p2, p3, p4⟩ := pushHead_spec h.head h.tail h.links h.nodup (Or.inl he)
  have hperm : (e :: l.erase e).Perm l := (List.perm_cons_erase he).symm
  refine ⟨⟨p1, p2, p3, hperm.nodup_iff.mpr h.nodup, fun a ha => h.below a (hperm.mem_iff.mp ha), ?_, ?_, ?_⟩, p4⟩
  · intro k a
    dsimp only
    rw [h.map k a, hperm.mem_iff, (p4 a).1]
  · dsimp only; rw [h.count, hperm.length_eq]
  · dsimp only
    rw [h.size]
    have : (fun e' => (((pushHead c.nodes c.usage e).1 e').value.length : Int)) = fun e' => ((c.nodes e').value.length : Int) := by
      funext x; rw [(p4 x).1]
    rw [this]
    exact (perm_sum_int (hperm.map _)).symm

/-- Dropping the last entry. -/
theorem LruInv.dropOne {c : Lru δ} {l : List Nat} {e : Nat} (h : LruInv c (l ++ [e])) :
    LruInv c.dropOne l ∧ SameStrings c.nodes c.dropOne.nodes ∧ c.dropOne.maxSize = c.maxSize := by
  obtain ⟨p1, p2, p3, p4, p5⟩ := dropTail_spec h.head h.tail h.links h.nodup
  unfold Lru.dropOne
  generalize dropTail c.nodes c.usage = r at *
  obtain ⟨nodes, usage, el⟩ := r
  dsimp only at p1 p2 p3 p4 p5
  subst p1
  dsimp only
  refine ⟨⟨p2, p3, p4, ?_, fun a ha => h.below a (by simp [ha]), ?_, ?_, ?_⟩, p5, rfl⟩
  · have := h.nodup
    rw [List.nodup_append] at this
    exact this.1
  · intro k a
    dsimp only
    rw [get_erase, (p5 e).1, (p5 a).1]
    have hel : e ∉ l := by
      have := h.nodup
      rw [List.nodup_append] at this
      intro he
      exact this.2.2 e he e (by simp) rfl
    have hee := (h.map (c.nodes e).value e).mpr ⟨by simp, rfl⟩
    split
    · next hk =>
      subst hk
      constructor
      · intro hx; cases hx
      · rintro ⟨ha, hv⟩
        have := (h.map (c.nodes e).value a).mpr ⟨by simp [ha], hv⟩
        rw [hee] at this
        rw [← Option.some.inj this] at ha
        exact absurd ha hel
    · next hk =>
      rw [h.map k a, List.mem_append, List.mem_singleton]
      constructor
      · rintro ⟨ha | ha, hv⟩
        · exact ⟨ha, hv⟩
        · subst ha; exact absurd hv hk
      · rintro ⟨ha, hv⟩; exact ⟨Or.inl ha, hv⟩
  · dsimp only; rw [h.count]; simp
  · dsimp only
    rw [h.size, (p5 e).1]
    have : (fun e' => ((nodes e').value.length : Int)) = fun e' => ((c.nodes e').value.length : Int) := by
      funext x; rw [(p5 x).1]
    rw [this, List.map_append, List.sum_append]
    simp

/-- Inserting a new entry. -/
theorem LruInv.insert {c : Lru δ} {l : List Nat} (h : LruInv c l) {v : Str} (d : δ) (hv : c.values[v]? = none) :
    LruInv (c.insert v d) (c.fresh :: l) ∧ ((c.insert v d).nodes c.fresh).value = v ∧ ((c.insert v d).nodes c.fresh).data = d ∧
    (∀ x, x ≠ c.fresh → ((c.insert v d).nodes x).value = (c.nodes x).value ∧ ((c.insert v d).nodes x).data = (c.nodes x).data) := by
  have hnot : c.fresh ∉ l := fun hm => Nat.lt_irrefl _ (h.below _ hm)
  unfold Lru.insert
  dsimp only
  generalize hn : (fun x => if x = c.fresh then ({ value := v, data := d } : Node δ) else c.nodes x : Nodes δ) = n
  have nself : n c.fresh = { value := v, data := d } := by rw [← hn]; simp
  have nne : ∀ x, x ≠ c.fresh → n x = c.nodes x := by intro x hx; rw [← hn]; simp [hx]
  have hs : Seg n none l none := h.links.congr (fun x hx => by rw [nne x (fun he => hnot (he ▸ hx))]; exact ⟨rfl, rfl⟩)
  obtain ⟨p1, p2, p3, p4⟩ := pushHead_spec (e := c.fresh) h.head h.tail hs h.nodup (Or.inr (by rw [nself]; exact ⟨rfl, rfl⟩))
  rw [List.erase_of_not_mem hnot] at p2 p3
  have vself : ((pushHead n c.usage c.fresh).1 c.fresh).value = v := by rw [(p4 _).1, nself]
  have vne : ∀ x, x ≠ c.fresh → ((pushHead n c.usage c.fresh).1 x).value = (c.nodes x).value := by
    intro x hx; rw [(p4 _).1, nne x hx]
  refine ⟨⟨p1, p2, p3, List.nodup_cons.mpr ⟨hnot, h.nodup⟩, ?_, ?_, ?_, ?_⟩, vself, by rw [(p4 _).2, nself], ?_⟩
  · intro a ha
    dsimp only
    rcases List.mem_cons.mp ha with rfl | ha
    · omega
    · have := h.below a ha; omega
  · intro k a
    dsimp only
    rw [get_insert]
    split
    · next hk =>
      subst hk
      constructor
      · intro hx
        have : c.fresh = a := Option.some.inj hx
        subst this
        exact ⟨by simp, vself⟩
      · rintro ⟨ha, hval⟩
        rcases List.mem_cons.mp ha with rfl | ha
        · rfl
        · rw [vne a (fun he => hnot (he ▸ ha))] at hval
          rw [(h.map _ a).mpr ⟨ha, hval⟩] at hv
          cases hv
    · next hk =>
      rw [h.map k a, List.mem_cons]
      constructor
      · rintro ⟨ha, hval⟩
        exact ⟨Or.inr ha, by rw [vne a (fun he => hnot (he ▸ ha))]; exact hval⟩
      · rintro ⟨rfl | ha, hval⟩
        · rw [vself] at hval; exact absurd hval hk
        · rw [vne a (fun he => hnot (he ▸ ha))] at hval
          exact ⟨ha, hval⟩
  · dsimp only; rw [h.count]; simp
  · dsimp only
    rw [List.map_cons, List.sum_cons, vself, h.size]
    have : l.map (fun e => (((pushHead n c.usage c.fresh).1 e).value.length : Int)) = l.map fun e => ((c.nodes e).value.length : Int) := by
      apply List.map_congr_left
      intro x hx
      rw [vne x (fun he => hnot (he ▸ hx))]
    rw [this]; omega
  · intro x hx
    exact ⟨vne x hx, by rw [(p4 _).2, nne x hx]⟩

/-! ## Operations -/

theorem LruInv.get_hit {c : Lru δ} {l : List Nat} (h : LruInv c l) {k : Str} {e : Nat} (he : c.values[k]? = some e) :
    LruInv (c.get k).1 (e :: l.erase e) ∧ SameStrings c.nodes (c.get k).1.nodes ∧
    (c.get k).2 = some (k, (c.nodes e).data) ∧ (c.get k).1.maxSize = c.maxSize := by
  have hm := (h.map k e).mp he
  have t := h.touch hm.1
  unfold Lru.get
  rw [he]
  dsimp only
  exact ⟨t.1, t.2, by rw [hm.2], rfl⟩

theorem get_miss {c : Lru δ} {k : Str} (hk : c.values[k]? = none) : c.get k = (c, none) := by
  unfold Lru.get
  rw [hk]

/-- `ensureCacheSize` drops from the end, exactly until there is room. -/
theorem LruInv.ensure {c c' : Lru δ} {l : List Nat} (h : LruInv c l) {fuel : Nat} (he : Lru.ensureCacheSize fuel c = some c') :
    ∃ l', l' <+: l ∧ LruInv c' l' ∧ SameStrings c.nodes c'.nodes ∧ c'.maxSize = c.maxSize ∧ c'.Size < c'.maxSize ∧
      ∀ m, l'.length < m → m ≤ l.length → c.maxSize ≤ Verif.cost (c.strings (l.take m)) := by
  induction fuel generalizing c l with
  | zero =>
    unfold Lru.ensureCacheSize at he
    split at he
    · cases he
    · next hs =>
      injection he with he
      subst he
      exact ⟨l, List.prefix_refl _, h, SameStrings.refl _, rfl, by omega, fun m h1 h2 => by omega⟩
  | succ fuel ih =>
    unfold Lru.ensureCacheSize at he
    split at he
    · next hs =>
      rcases List.eq_nil_or_concat l with rfl | ⟨l0, e, rfl⟩
      · -- nothing to drop: the loop does not change anything any more
        have hdrop : c.dropOne = c := by
          unfold Lru.dropOne dropTail
          rw [show c.usage.tail = none from h.tail]
        rw [hdrop] at he
        obtain ⟨l', h1, h2⟩ := ih h he
        exact ⟨l', h1, h2⟩
      · rw [List.concat_eq_append] at h ⊢
        obtain ⟨d1, d2, d3⟩ := h.dropOne
        obtain ⟨l', e1, e2, e3, e4, e5, e6⟩ := ih d1 he
        have hstr : ∀ l, c.dropOne.strings l = c.strings l := by
          intro l
          unfold Lru.strings
          apply List.map_congr_left
          intro x _
          exact (d2 x).1
        refine ⟨l', e1.trans (List.prefix_append _ _), e2, d2.trans e3, e4.trans d3, e5, ?_⟩
        intro m h1 h2
        by_cases hm : m ≤ l0.length
        · have := e6 m h1 hm
          rw [hstr, d3] at this
          rw [List.take_append_of_le_length hm]
          exact this
        · have : m = (l0 ++ [e]).length := by simp at h2 ⊢; omega
          rw [this, List.take_length, ← h.cost]
          omega
    · next hs =>
      injection he with he
      subst he
      exact ⟨l, List.prefix_refl _, h, SameStrings.refl _, rfl, by omega, fun m h1 h2 => by omega⟩

/-- With a positive limit the loop ends. -/
theorem LruInv.ensure_ends {c : Lru δ} {l : List Nat} (h : LruInv c l) (hm : 0 < c.maxSize) (fuel : Nat) (hf : l.length ≤ fuel) :
    (Lru.ensureCacheSize fuel c).isSome := by
  induction fuel generalizing c l with
  | zero =>
    have : l = [] := List.length_eq_zero_iff.mp (by omega)
    subst this
    unfold Lru.ensureCacheSize
    have hz : c.Size = 0 := h.cost
    rw [if_neg (by omega)]
    rfl
  | succ fuel ih =>
    unfold Lru.ensureCacheSize
    split
    · next hs =>
      rcases List.eq_nil_or_concat l with rfl | ⟨l0, e, rfl⟩
      · have hz : c.Size = 0 := h.cost
        omega
      · rw [List.concat_eq_append] at h hf
        obtain ⟨d1, d2, d3⟩ := h.dropOne
        exact ih d1 (by rw [d3]; exact hm) (by simp at hf; omega)
    · rfl

/-- What `Set` does. -/
theorem LruInv.set {c c' : Lru δ} {l : List Nat} (h : LruInv c l) {fuel : Nat} {v : Str} {d : δ} (hs : c.set fuel v d = some c') :
    (∃ e, c.values[v]? = some e ∧ LruInv c' (e :: l.erase e) ∧ SameStrings c.nodes c'.nodes ∧ c'.maxSize = c.maxSize) ∨
    (c.values[v]? = none ∧ ∃ l', l' <+: l ∧ LruInv c' (c.fresh :: l') ∧ (c'.nodes c.fresh).value = v ∧ (c'.nodes c.fresh).data = d ∧
      (∀ x ∈ l', (c'.nodes x).value = (c.nodes x).value ∧ (c'.nodes x).data = (c.nodes x).data) ∧
      c'.maxSize = c.maxSize ∧ Verif.cost (c.strings l') < c.maxSize ∧
      ∀ m, l'.length < m → m ≤ l.length → c.maxSize ≤ Verif.cost (c.strings (l.take m))) := by
  unfold Lru.set at hs
  cases hv : c.values[v]? with
  | some e =>
    rw [hv] at hs
    injection hs with hs
    subst hs
    have t := h.touch ((h.map v e).mp hv).1
    exact Or.inl ⟨e, rfl, t.1, t.2, rfl⟩
  | none =>
    rw [hv] at hs
    cases he : Lru.ensureCacheSize fuel c with
    | none => rw [he] at hs; cases hs
    | some c1 =>
      rw [he] at hs
      injection hs with hs
      subst hs
      obtain ⟨l', e1, e2, e3, e4, e5, e6⟩ := h.ensure he
      have hfresh : c1.fresh = c.fresh := by
        clear e2 e3 e4 e5 e6 h
        induction fuel generalizing c with
        | zero =>
          unfold Lru.ensureCacheSize at he
          split at he
          · cases he
          · injection he with he; rw [he]
        | succ fuel ih =>
          unfold Lru.ensureCacheSize at he
          split at he
          · have hd : c.dropOne.fresh = c.fresh := by
              unfold Lru.dropOne; split <;> rfl
            rw [← hd]
            refine ih ?_ he
            unfold Lru.dropOne
            split
            · exact hv
            · dsimp only; rw [get_erase, hv]; simp
          · injection he with he; rw [he]
      have hv1 : c1.values[v]? = none := by
        cases hx : c1.values[v]? with
        | none => rfl
        | some a =>
          have := (e2.map v a).mp hx
          rw [(e3 a).1] at this
          rw [(h.map v a).mpr ⟨e1.subset this.1, this.2⟩] at hv
          cases hv
      have I := e2.insert d hv1
      rw [hfresh] at I
      have hstr : c1.strings l' = c.strings l' := by
        unfold Lru.strings
        apply List.map_congr_left
        intro x _
        exact (e3 x).1
      refine Or.inr ⟨rfl, l', e1, I.1, I.2.1, I.2.2.1, ?_, e4, ?_, e6⟩
      · intro x hx
        have hne : x ≠ c.fresh := fun he => Nat.lt_irrefl _ (he ▸ h.below x (e1.subset hx))
        have := I.2.2.2 x hne
        exact ⟨this.1.trans (e3 x).1, this.2.trans (e3 x).2⟩
      · rw [← hstr, ← e2.cost, ← e4]; exact e5

theorem Lru.Reachable.inv {m : Int} {c : Lru δ} {uses : List Str} (h : Lru.Reachable m c uses) : ∃ l, LruInv c l ∧ c.maxSize = m := by
  induction h with
  | new d => exact ⟨[], LruInv.new m d, rfl⟩
  | @hit c uses key r _ hr ih =>
    obtain ⟨l, hl, hm⟩ := ih
    cases hk : c.values[key]? with
    | none => rw [get_miss hk] at hr; cases hr
    | some e =>
      have := hl.get_hit hk
      exact ⟨_, this.1, this.2.2.2.trans hm⟩
  | @miss c uses key _ hr ih =>
    obtain ⟨l, hl, hm⟩ := ih
    cases hk : c.values[key]? with
    | none => rw [get_miss hk]; exact ⟨l, hl, hm⟩
    | some e => rw [(hl.get_hit hk).2.2.1] at hr; cases hr
  | set _ hs ih =>
    obtain ⟨l, hl, hm⟩ := ih
    rcases hl.set hs with ⟨e, _, h1, _, h2⟩ | ⟨_, l', _, h1, _, _, _, h2, _⟩
    · exact ⟨_, h1, h2.trans hm⟩
    · exact ⟨_, h1, h2.trans hm⟩

end Verif
