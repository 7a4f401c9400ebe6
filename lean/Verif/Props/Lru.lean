import Verif.Proofs.Lru

/-!
# The LRU cache: C13–C16
-/

namespace Verif

variable {δ : Type}

theorem Seg.follows {h : Nodes δ} {l : List Nat} {p : Option Nat} (hs : Seg h p l none) : Follows (fun e => (h e).next) l.head? l := by
  induction l generalizing p with
  | nil => exact .nil
  | cons x xs ih =>
    refine .cons ?_
    have := hs.2.1
    rw [Option.or_none] at this
    show Follows _ (h x).next xs
    rw [this]
    exact ih hs.2.2

theorem Seg.follows_back {h : Nodes δ} {l : List Nat} {q : Option Nat} (hs : Seg h none l q) :
    Follows (fun e => (h e).prev) l.getLast? l.reverse := by
  refine list_snoc_induction (P := fun l => ∀ q, Seg h none l q → Follows (fun e => (h e).prev) l.getLast? l.reverse) ?_ ?_ l q hs
  · intro _ _; exact .nil
  · intro l x ih q hs
    rw [Seg.append] at hs
    simp only [List.getLast?_append, List.getLast?_singleton, Option.some_or, List.reverse_append, List.reverse_cons,
      List.reverse_nil, List.nil_append, List.singleton_append]
    refine .cons ?_
    show Follows _ (h x).prev l.reverse
    have := hs.2.1
    rw [Option.or_none] at this
    rw [this]
    exact ih _ hs.1

theorem Follows.unique {f : Nat → Option Nat} {a : Option Nat} {l l' : List Nat} (h : Follows f a l) (h' : Follows f a l') : l = l' := by
  induction h generalizing l' with
  | nil => cases h'; rfl
  | cons _ ih => cases h' with | cons h' => rw [ih h']

theorem LruInv.contents {c : Lru δ} {l : List Nat} (h : LruInv c l) {s : List Str} : c.Contents s ↔ s = c.strings l := by
  have hf := h.links.follows
  rw [← h.head] at hf
  constructor
  · rintro ⟨l', h1, h2⟩
    rw [h2, h1.unique hf]; rfl
  · intro hs
    exact ⟨l, hf, hs⟩

theorem countLoop_follows {h : Nodes δ} {a : Option Nat} {l : List Nat} (hf : Follows (fun e => (h e).next) a l) (fuel : Nat)
    (hl : l.length ≤ fuel) : countLoop h fuel a = some l.length := by
  induction hf generalizing fuel with
  | nil => unfold countLoop; rfl
  | cons _ ih =>
    cases fuel with
    | zero => simp at hl
    | succ fuel =>
      unfold countLoop
      rw [ih fuel (by simpa using hl)]
      rfl

/-- C13: after any sequence of calls, the list found by following `next` from the head is the reverse of the list found by
following `prev` from the tail; its strings are distinct; the map has exactly its entries, under their strings;
and the counters of the cache and of the list agree with it. -/
theorem C13_bookkeeping (m : Int) (c : Lru δ) (uses : List Str) (h : Lru.Reachable m c uses) :
    ∃ l : List Nat, Follows (fun e => (c.nodes e).next) c.usage.head l ∧ Follows (fun e => (c.nodes e).prev) c.usage.tail l.reverse ∧
      (l.map fun e => (c.nodes e).value).Nodup ∧
      (∀ (k : Str) (e : Nat), c.values[k]? = some e ↔ e ∈ l ∧ (c.nodes e).value = k) ∧
      c.Count = l.length ∧ c.Size = cost (l.map fun e => (c.nodes e).value) ∧
      (∀ fuel, l.length ≤ fuel → countLoop c.nodes fuel c.usage.head = some l.length) := by
  obtain ⟨l, hl, _⟩ := h.inv
  have hf := hl.links.follows
  rw [← hl.head] at hf
  refine ⟨l, hf, ?_, hl.strings_nodup, hl.map, hl.count, hl.cost, fun fuel hfl => countLoop_follows hf fuel hfl⟩
  rw [hl.tail]; exact hl.links.follows_back

/-- C14: after any sequence of calls, the size is below the limit, or exceeds it by less than the cost of one of the
strings. (With a limit that is not positive, no `Set` of a new string returns.) -/
theorem C14_bounded (m : Int) (hm : 0 < m) (c : Lru δ) (uses : List Str) (h : Lru.Reachable m c uses) :
    c.Size < m ∨ ∃ strings s, c.Contents strings ∧ s ∈ strings ∧ c.Size < m + cost [s] := by
  have key : ∃ l, LruInv c l ∧ c.maxSize = m ∧ (cost (c.strings l) < m ∨ ∃ s ∈ c.strings l, cost (c.strings l) < m + cost [s]) := by
    have touch : ∀ {c c' : Lru δ} {l : List Nat} {e : Nat}, e ∈ l → SameStrings c.nodes c'.nodes →
        (cost (c.strings l) < m ∨ ∃ s ∈ c.strings l, cost (c.strings l) < m + cost [s]) →
        (cost (c'.strings (e :: l.erase e)) < m ∨ ∃ s ∈ c'.strings (e :: l.erase e), cost (c'.strings (e :: l.erase e)) < m + cost [s]) := by
      intro c c' l e he hs hc
      have hstr : c'.strings (e :: l.erase e) = c.strings (e :: l.erase e) := by
        unfold Lru.strings
        exact List.map_congr_left fun x _ => (hs x).1
      have hp : (c.strings (e :: l.erase e)).Perm (c.strings l) := ((List.perm_cons_erase he).symm).map _
      have hcost : cost (c.strings (e :: l.erase e)) = cost (c.strings l) := perm_sum_int (hp.map _)
      rw [hstr, hcost]
      rcases hc with hc | ⟨s, hs, hc⟩
      · exact Or.inl hc
      · exact Or.inr ⟨s, hp.mem_iff.mpr hs, hc⟩
    induction h with
    | new d => exact ⟨[], LruInv.new m d, rfl, Or.inl hm⟩
    | @hit c uses key r _ hr ih =>
      obtain ⟨l, hl, hms, hc⟩ := ih
      cases hk : c.values[key]? with
      | none => rw [get_miss hk] at hr; cases hr
      | some e =>
        obtain ⟨g1, g2, _, g4⟩ := hl.get_hit hk
        exact ⟨_, g1, g4.trans hms, touch ((hl.map _ _).mp hk).1 g2 hc⟩
    | @miss c uses key _ hr ih =>
      obtain ⟨l, hl, hms, hc⟩ := ih
      cases hk : c.values[key]? with
      | none => rw [get_miss hk]; exact ⟨l, hl, hms, hc⟩
      | some e => rw [(hl.get_hit hk).2.2.1] at hr; cases hr
    | @set c c' uses value data fuel _ hs ih =>
      obtain ⟨l, hl, hms, hc⟩ := ih
      rcases hl.set hs with ⟨e, h0, h1, h2, h3⟩ | ⟨_, l', h0, h1, hv, _, h4, h3, h5, _⟩
      · exact ⟨_, h1, h3.trans hms, touch ((hl.map _ _).mp h0).1 h2 hc⟩
      · refine ⟨_, h1, h3.trans hms, Or.inr ⟨value, by simp [Lru.strings, hv], ?_⟩⟩
        have hstr : c'.strings l' = c.strings l' := List.map_congr_left fun x hx => (h4 x hx).1
        have hcons : c'.strings (c.fresh :: l') = value :: c.strings l' := by
          rw [← hstr]; unfold Lru.strings; rw [List.map_cons, hv]
        rw [hcons]
        unfold cost at h5 ⊢
        simp only [List.map_cons, List.map_nil, List.sum_cons, List.sum_nil]
        rw [hms] at h5
        omega
  obtain ⟨l, hl, hms, hc⟩ := key
  rw [hl.cost]
  rcases hc with hc | ⟨s, hs, hc⟩
  · exact Or.inl hc
  · exact Or.inr ⟨c.strings l, s, hl.contents.mpr rfl, hs, hc⟩

/-- C14: a `Set` of a string that is not there keeps the most recently used strings whose cost is below the limit, as
many as possible, and puts the new one in front of them. -/
theorem C14_insertion (m : Int) (c c' : Lru δ) (uses : List Str) (h : Lru.Reachable m c uses) (fuel : Nat) (v : Str) (d : δ)
    (strings strings' : List Str) (hc : c.Contents strings) (hv : v ∉ strings) (hset : c.set fuel v d = some c')
    (hc' : c'.Contents strings') :
    ∃ n, strings' = v :: strings.take n ∧ cost (strings.take n) < m ∧
      ∀ k, n < k → k ≤ strings.length → m ≤ cost (strings.take k) := by
  obtain ⟨l, hl, hm⟩ := h.inv
  have hs := hl.contents.mp hc
  subst hs
  rcases hl.set hset with ⟨e, h0, _⟩ | ⟨_, l', h0, h1, hval, _, h4, h3, h5, h6⟩
  · exact absurd (hl.mem_strings.mpr ⟨e, h0⟩) hv
  · have htake : l' = l.take l'.length := List.prefix_iff_eq_take.mp h0
    have hstr : c'.strings l' = c.strings l' := List.map_congr_left fun x hx => (h4 x hx).1
    have hst : c.strings l' = (c.strings l).take l'.length := by
      unfold Lru.strings
      rw [← List.map_take, ← htake]
    refine ⟨l'.length, ?_, ?_, ?_⟩
    · rw [h1.contents.mp hc', ← hst, ← hstr]
      unfold Lru.strings
      rw [List.map_cons, hval]
    · rw [← hst, ← hm]; exact h5
    · intro k hk1 hk2
      have := h6 k hk1 (by simpa [Lru.strings] using hk2)
      rw [hm] at this
      unfold Lru.strings at this ⊢
      rw [← List.map_take]
      exact this

/-- A string that is there is found, as itself. -/
theorem get_spec (m : Int) (c : Lru δ) (uses : List Str) (h : Lru.Reachable m c uses) (k : Str) (strings : List Str)
    (hc : c.Contents strings) : (∀ r, (c.get k).2 = some r → r.1 = k) ∧ ((c.get k).2.isSome ↔ k ∈ strings) := by
  obtain ⟨l, hl, _⟩ := h.inv
  rw [hl.contents.mp hc, hl.mem_strings]
  cases hk : c.values[k]? with
  | none =>
    rw [get_miss hk]
    exact ⟨fun r hr => (by cases hr), by simp⟩
  | some e =>
    rw [(hl.get_hit hk).2.2.1]
    exact ⟨fun r hr => (by injection hr with hr; rw [← hr]), by simp⟩

theorem erase_strings {c : Lru δ} {l : List Nat} (h : LruInv c l) {k : Str} {e : Nat} (he : c.values[k]? = some e) :
    c.strings (e :: l.erase e) = k :: (c.strings l).filter (· ≠ k) := by
  have hm := (h.map k e).mp he
  unfold Lru.strings
  rw [List.map_cons, hm.2, List.filter_map, h.nodup.erase_eq_filter]
  congr 1
  have : l.filter (fun x => x != e) = l.filter ((fun x => decide (x ≠ k)) ∘ fun e => (c.nodes e).value) := by
    apply List.filter_congr
    intro x hx
    by_cases hxe : x = e
    · subst hxe; simp [hm.2]
    · have : (c.nodes x).value ≠ k := by
        intro hk
        have := (h.map k x).mpr ⟨hx, hk⟩
        rw [he] at this
        exact hxe (Option.some.inj this).symm
      simp [hxe, this]
  rw [this]

/-- C15: after any sequence of calls, the strings in the cache, in the order of the list, are the most recently used
strings: the first ones of all the strings that were ever used, ordered by their last use. -/
theorem C15_least_recently_used (m : Int) (c : Lru δ) (uses : List Str) (h : Lru.Reachable m c uses) (strings : List Str)
    (hc : c.Contents strings) : strings <+: recent uses := by
  have key : ∃ l, LruInv c l ∧ c.strings l <+: recent uses := by
    have touch : ∀ {c c' : Lru δ} {l : List Nat} {e : Nat} {k : Str} {uses : List Str}, LruInv c l → c.values[k]? = some e →
        SameStrings c.nodes c'.nodes → c.strings l <+: recent uses → c'.strings (e :: l.erase e) <+: recent (k :: uses) := by
      intro c c' l e k uses hl he hs hp
      have hstr : c'.strings (e :: l.erase e) = c.strings (e :: l.erase e) :=
        List.map_congr_left fun x _ => (hs x).1
      rw [hstr, erase_strings hl he]
      unfold recent
      exact List.prefix_cons_inj _ |>.mpr (hp.filter _)
    clear hc
    induction h with
    | new d => exact ⟨[], LruInv.new m d, List.prefix_refl _⟩
    | @hit c uses key r _ hr ih =>
      obtain ⟨l, hl, hp⟩ := ih
      cases hk : c.values[key]? with
      | none => rw [get_miss hk] at hr; cases hr
      | some e =>
        obtain ⟨g1, g2, _, _⟩ := hl.get_hit hk
        exact ⟨_, g1, touch hl hk g2 hp⟩
    | @miss c uses key _ hr ih =>
      obtain ⟨l, hl, hp⟩ := ih
      cases hk : c.values[key]? with
      | none => rw [get_miss hk]; exact ⟨l, hl, hp⟩
      | some e => rw [(hl.get_hit hk).2.2.1] at hr; cases hr
    | @set c c' uses value data fuel _ hs ih =>
      obtain ⟨l, hl, hp⟩ := ih
      rcases hl.set hs with ⟨e, h0, h1, h2, _⟩ | ⟨hn, l', h0, h1, hv, _, h4, _⟩
      · exact ⟨_, h1, touch hl h0 h2 hp⟩
      · refine ⟨_, h1, ?_⟩
        have hstr : c'.strings l' = c.strings l' := List.map_congr_left fun x hx => (h4 x hx).1
        have hcons : c'.strings (c.fresh :: l') = value :: c.strings l' := by
          rw [← hstr]; unfold Lru.strings; rw [List.map_cons, hv]
        rw [hcons]
        unfold recent
        refine List.prefix_cons_inj _ |>.mpr ?_
        have hpre : c.strings l' <+: c.strings l := h0.map _
        have hne : (c.strings l').filter (· ≠ value) = c.strings l' := by
          rw [List.filter_eq_self]
          intro s hsm
          have : s ≠ value := by
            rintro rfl
            obtain ⟨a, ha⟩ := hl.mem_strings.mp (hpre.subset hsm)
            rw [hn] at ha; cases ha
          simp [this]
        rw [← hne]
        exact (hpre.trans hp).filter _
  obtain ⟨l, hl, hp⟩ := key
  rw [hl.contents.mp hc]
  exact hp

/-- C15: hence, if a string is there, then so is every string that was used more recently. -/
theorem C15_more_recent_present (m : Int) (c : Lru δ) (uses : List Str) (h : Lru.Reachable m c uses) (strings : List Str)
    (hc : c.Contents strings) (a b : List Str) (s : Str) (hu : recent uses = a ++ s :: b) (hs : s ∈ strings) :
    ∀ t ∈ a, t ∈ strings := by
  have hp := C15_least_recently_used m c uses h strings hc
  rw [hu] at hp
  have hnd : (recent uses).Nodup := by
    clear hu hs hp hc h
    induction uses with
    | nil => exact List.nodup_nil
    | cons x xs ih =>
      unfold recent
      rw [List.nodup_cons]
      refine ⟨by simp, List.Pairwise.filter _ ih⟩
  rw [hu, List.nodup_append] at hnd
  intro t ht
  rcases Nat.le_total strings.length a.length with hle | hle
  · exact absurd rfl (hnd.2.2 s ((List.prefix_of_prefix_length_le hp (List.prefix_append _ _) hle).subset hs) s (by simp))
  · exact (List.prefix_of_prefix_length_le (List.prefix_append _ _) hp hle).subset ht

/-- C16, in part: with a positive limit, `Set` returns, in every state that calls lead to. Missing: other limits, for
which it is false (`C16_set_hangs`). The cache of the proxy has the limit 5 MiB. -/
theorem C16_set_returns_partial (m : Int) (hm : 0 < m) (c : Lru δ) (uses : List Str) (h : Lru.Reachable m c uses) (v : Str) (d : δ) :
    ∃ fuel c', c.set fuel v d = some c' := by
  obtain ⟨l, hl, hms⟩ := h.inv
  unfold Lru.set
  cases hv : c.values[v]? with
  | some e => exact ⟨0, _, rfl⟩
  | none =>
    have := hl.ensure_ends (by rw [hms]; exact hm) l.length (Nat.le_refl _)
    obtain ⟨c1, h1⟩ := Option.isSome_iff_exists.mp this
    exact ⟨l.length, _, by rw [h1]; rfl⟩

/-- C16, negation: with a limit that is not positive, the first `Set` never returns. -/
theorem C16_set_hangs (m : Int) (hm : m ≤ 0) (v : Str) (d d' : δ) (fuel : Nat) :
    (Lru.new m d').set fuel v d = none := by
  have hens : Lru.ensureCacheSize fuel (Lru.new m d') = none := by
    induction fuel with
    | zero => unfold Lru.ensureCacheSize; rw [if_pos]; exact hm
    | succ fuel ih =>
      unfold Lru.ensureCacheSize
      rw [if_pos (show (Lru.new m d').Size ≥ (Lru.new m d').maxSize from hm)]
      exact ih
  unfold Lru.set
  rw [show (Lru.new m d').values[v]? = none by simp [Lru.new], hens]
  rfl

/-- With a limit that is not positive, nothing ever gets into the cache. -/
theorem reachable_empty {m : Int} (hm : m ≤ 0) {c : Lru δ} {uses : List Str} (h : Lru.Reachable m c uses) : ∃ d, c = Lru.new m d := by
  have hget : ∀ (d : δ) key, (Lru.new m d).get key = (Lru.new m d, none) := by
    intro d key
    unfold Lru.get
    rw [show (Lru.new m d).values[key]? = none by simp [Lru.new]]
  induction h with
  | new d => exact ⟨d, rfl⟩
  | hit _ hr ih =>
    obtain ⟨d, rfl⟩ := ih
    rw [hget] at hr
    cases hr
  | miss _ _ ih =>
    obtain ⟨d, rfl⟩ := ih
    rw [hget]
    exact ⟨d, rfl⟩
  | set _ hs ih =>
    obtain ⟨d, rfl⟩ := ih
    rw [C16_set_hangs m hm] at hs
    cases hs

/-- C16, exactly: whatever calls there were, `Set` returns if and only if the limit is positive. -/
theorem C16_exact (m : Int) (c : Lru δ) (uses : List Str) (h : Lru.Reachable m c uses) (v : Str) (d : δ) : (∃ fuel c', c.set fuel v d = some c') ↔ 0 < m := by
  constructor
  · rintro ⟨fuel, c', hs⟩
    refine Classical.byContradiction fun hm => ?_
    obtain ⟨d', rfl⟩ := reachable_empty (by omega) h
    rw [C16_set_hangs m (by omega)] at hs
    cases hs
  · exact fun hm => C16_set_returns_partial m hm c uses h v d

/-! Non-vacuity: a cache with room for two entries, with an eviction of the entry that was not used in between. -/

/-- Runs calls: a string alone is a `Set`, a string with `true` is a `Get`. -/
def runLru : Lru Unit → List (Str × Bool) → Option (Lru Unit)
  | c, [] => some c
  | c, (s, false) :: rest => (c.set 10 s ()).bind (runLru · rest)
  | c, (s, true) :: rest => runLru (c.get s).1 rest

example : (runLru (Lru.new 100 ()) [(b!"a", false), (b!"b", false), (b!"a", true), (b!"c", false)]).map
    (fun c => (c.values.toList.map Prod.fst, c.Count, c.Size, countLoop c.nodes 5 c.usage.head)) =
    some ([b!"a", b!"c"], 2, 114, some 2) := by decide +kernel

/-- That history is one of those the theorems are about. -/
example : ∃ (c : Lru Unit), Lru.Reachable 100 c [b!"c", b!"a", b!"b", b!"a"] := by
  have h0 : Lru.Reachable 100 (Lru.new 100 ()) [] := .new ()
  obtain ⟨f1, c1, s1⟩ := C16_set_returns_partial 100 (by decide) _ _ h0 b!"a" ()
  have h1 := h0.set s1
  obtain ⟨f2, c2, s2⟩ := C16_set_returns_partial 100 (by decide) _ _ h1 b!"b" ()
  have h2 := h1.set s2
  obtain ⟨f3, c3, s3⟩ := C16_set_returns_partial 100 (by decide) _ _ h2 b!"a" ()
  have h3 := h2.set s3
  obtain ⟨f4, c4, s4⟩ := C16_set_returns_partial 100 (by decide) _ _ h3 b!"c" ()
  exact ⟨c4, h3.set s4⟩

end Verif
