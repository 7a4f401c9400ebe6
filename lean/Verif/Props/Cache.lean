import Verif.Model.Cache
import Verif.Props.Lru
import Verif.Proofs.Balance

/-!
# Interned strings: C17, C18
-/

namespace Verif

/-- A slice whose memory is part of a string: nobody writes to it any more. -/
def IsString (st : Interner) (s : Slice) : Prop := s.len = 0 ∨ s ∈ st.frozen

structure CallInv (st : Interner) (c : Lookup) : Prop where
  inside : c.value.block < st.mem.sizes.length
  arg : st.mem.read c.value = c.arg
  noCopy : c.copyOnInsert = false → IsString st c.value
  ready : ∀ key, c.pc = .ready key → IsString st key ∧ st.mem.read key = c.arg

structure InternerInv (st : Interner) : Prop where
  cache : ∃ l, LruInv st.cache l ∧ st.cache.maxSize = 5 * 1024 * 1024 ∧
    ∀ e ∈ l, IsString st (st.cache.nodes e).data ∧ st.mem.read (st.cache.nodes e).data = (st.cache.nodes e).value
  calls : ∀ c ∈ st.calls, CallInv st c
  frozen : ∀ s ∈ st.frozen, s.block < st.mem.sizes.length
  returned : ∀ r ∈ st.returned, IsString st r.1 ∧ st.mem.read r.1 = r.2

theorem read_empty (m : Mem UInt8) {s : Slice} (h : s.len = 0) : m.read s = [] := by
  unfold Mem.read; rw [h]; rfl

theorem read_alloc {m : Mem UInt8} {s : Slice} (n : Nat) (h : s.block < m.sizes.length) : (m.alloc 0 n).1.read s = m.read s := by
  apply Mem.read_congr
  intro i _
  unfold Mem.alloc
  dsimp only
  rw [if_neg (by omega)]

theorem read_write_avoid {m : Mem UInt8} {s : Slice} {block off : Nat} {vs : Str} (h : s.Avoids block off vs.length) :
    (m.write block off vs).read s = m.read s := by
  apply Mem.read_congr
  intro i hi
  rw [Mem.write_data, dif_neg]
  rintro ⟨h1, h2, h3⟩
  rcases h with h | h | h
  · exact h h1
  · omega
  · omega

/-- The memory changes, but not below any string or argument. -/
theorem InternerInv.memory {st st' : Interner} (h : InternerInv st) (hc : st'.cache = st.cache) (hl : st'.calls = st.calls)
    (hf : st'.frozen = st.frozen) (hr : st'.returned = st.returned) (hs : st.mem.sizes.length ≤ st'.mem.sizes.length)
    (hread : ∀ s, IsString st s ∨ (∃ c ∈ st.calls, s = c.value) → st'.mem.read s = st.mem.read s) : InternerInv st' := by
  have hstr : ∀ s, IsString st' s ↔ IsString st s := by intro s; unfold IsString; rw [hf]
  refine ⟨?_, ?_, ?_, ?_⟩
  · obtain ⟨l, h1, h2, h3⟩ := h.cache
    rw [hc]
    refine ⟨l, h1, h2, ?_⟩
    intro e he
    rw [hstr, hread _ (Or.inl (h3 e he).1)]
    exact h3 e he
  · intro c hcm
    rw [hl] at hcm
    have := h.calls c hcm
    refine ⟨Nat.lt_of_lt_of_le this.inside hs, ?_, ?_, ?_⟩
    · rw [hread _ (Or.inr ⟨c, hcm, rfl⟩)]; exact this.arg
    · intro hx; rw [hstr]; exact this.noCopy hx
    · intro key hk
      have := this.ready key hk
      rw [hstr, hread _ (Or.inl this.1)]
      exact this
  · rw [hf]; intro s hs'; exact Nat.lt_of_lt_of_le (h.frozen s hs') hs
  · rw [hr]
    intro r hrm
    have := h.returned r hrm
    rw [hstr, hread _ (Or.inl this.1)]
    exact this

theorem InternerInv.init : InternerInv Interner.init :=
  { cache := ⟨[], LruInv.new _ _, rfl, fun _ h => (List.not_mem_nil h).elim⟩
    calls := fun _ h => (List.not_mem_nil h).elim
    frozen := fun _ h => (List.not_mem_nil h).elim
    returned := fun _ h => (List.not_mem_nil h).elim }

theorem CallInv.congr {st st' : Interner} {c : Lookup} (h : CallInv st c) (hm : st'.mem = st.mem)
    (hf : ∀ s ∈ st.frozen, s ∈ st'.frozen) : CallInv st' c := by
  have hstr : ∀ s, IsString st s → IsString st' s := by
    intro s hs
    rcases hs with hs | hs
    · exact Or.inl hs
    · exact Or.inr (hf s hs)
  refine ⟨?_, ?_, ?_, ?_⟩
  · rw [hm]; exact h.inside
  · rw [hm]; exact h.arg
  · intro hx; exact hstr _ (h.noCopy hx)
  · intro key hk
    rw [hm]
    exact ⟨hstr _ (h.ready key hk).1, (h.ready key hk).2⟩

/-- The entries after looking something up. -/
theorem entries_get {st : Interner} (h : InternerInv st) (k : Str) :
    ∃ l, LruInv (st.cache.get k).1 l ∧ (st.cache.get k).1.maxSize = 5 * 1024 * 1024 ∧
    ∀ e ∈ l, IsString st ((st.cache.get k).1.nodes e).data ∧
      st.mem.read ((st.cache.get k).1.nodes e).data = ((st.cache.get k).1.nodes e).value := by
  obtain ⟨l, h1, h2, h3⟩ := h.cache
  cases hk : st.cache.values[k]? with
  | none => rw [get_miss hk]; exact ⟨l, h1, h2, h3⟩
  | some e =>
    obtain ⟨g1, g2, _, g4⟩ := h1.get_hit hk
    refine ⟨_, g1, g4.trans h2, ?_⟩
    intro x hx
    have hxl : x ∈ l := (List.perm_cons_erase ((h1.map k e).mp hk).1).mem_iff.mpr hx
    rw [(g2 x).1, (g2 x).2]
    exact h3 x hxl

theorem entries_set {st : Interner} (h : InternerInv st) {fuel : Nat} {key : Slice} {cache : Lru Slice}
    (hset : st.cache.set fuel (st.mem.read key) key = some cache) (hkey : IsString st key) :
    ∃ l, LruInv cache l ∧ cache.maxSize = 5 * 1024 * 1024 ∧
    ∀ e ∈ l, IsString st (cache.nodes e).data ∧ st.mem.read (cache.nodes e).data = (cache.nodes e).value := by
  obtain ⟨l, h1, h2, h3⟩ := h.cache
  rcases h1.set hset with ⟨e, h0, g1, g2, g4⟩ | ⟨_, l', h0, g1, hv, hd, h4, g4, _⟩
  · refine ⟨_, g1, g4.trans h2, ?_⟩
    intro x hx
    have hxl : x ∈ l := (List.perm_cons_erase ((h1.map _ e).mp h0).1).mem_iff.mpr hx
    rw [(g2 x).1, (g2 x).2]
    exact h3 x hxl
  · refine ⟨_, g1, g4.trans h2, ?_⟩
    intro x hx
    rcases List.mem_cons.mp hx with rfl | hx
    · rw [hv, hd]; exact ⟨hkey, rfl⟩
    · rw [(h4 x hx).1, (h4 x hx).2]
      exact h3 x (h0.subset hx)

theorem InternerInv.step {st st' : Interner} (h : InternerInv st) (hs : Interner.Step st st') : InternerInv st' := by
  cases hs with
  | alloc n =>
    refine h.memory rfl rfl rfl rfl (by simp [Mem.alloc]) ?_
    intro s hs
    rcases hs with (hs | hs) | ⟨c, hc, rfl⟩
    · rw [read_empty _ hs, read_empty _ hs]
    · exact read_alloc n (h.frozen s hs)
    · exact read_alloc n (h.calls c hc).inside
  | write block off vs hf hc =>
    refine h.memory rfl rfl rfl rfl (Nat.le_refl _) ?_
    intro s hs
    rcases hs with (hs | hs) | ⟨c, hcm, rfl⟩
    · rw [read_empty _ hs, read_empty _ hs]
    · exact read_write_avoid (hf s hs)
    · exact read_write_avoid (hc c hcm)
  | call copy value hv =>
    have hsub : ∀ s ∈ st.frozen, s ∈ (if copy then st.frozen else value :: st.frozen) := by
      intro s hs; split
      · exact hs
      · simp [hs]
    have hstr : ∀ s, IsString st s → s.len = 0 ∨ s ∈ (if copy then st.frozen else value :: st.frozen) := by
      intro s hs; exact hs.imp id (hsub s)
    refine ⟨?_, ?_, ?_, ?_⟩
    · obtain ⟨l, h1, h2, h3⟩ := h.cache
      exact ⟨l, h1, h2, fun e he => ⟨hstr _ (h3 e he).1, (h3 e he).2⟩⟩
    · intro c hc
      rcases List.mem_append.mp hc with hc | hc
      · exact (h.calls c hc).congr rfl hsub
      · rw [List.mem_singleton.mp hc]
        refine ⟨hv, rfl, ?_, fun key hk => by cases hk⟩
        intro hx
        refine Or.inr ?_
        dsimp only at hx ⊢
        rw [hx]; simp
    · intro s hs
      dsimp only at hs
      split at hs
      · exact h.frozen s hs
      · rcases List.mem_cons.mp hs with rfl | hs
        · exact hv
        · exact h.frozen s hs
    · intro r hr
      exact ⟨hstr _ (h.returned r hr).1, (h.returned r hr).2⟩
  | @empty j c hj hpc hlen =>
    have hcm := List.mem_of_getElem? hj
    refine ⟨h.cache, fun c' hc' => (h.calls c' (List.mem_of_mem_eraseIdx hc')).congr rfl (fun _ => id), h.frozen, ?_⟩
    intro r hr
    rcases List.mem_cons.mp hr with rfl | hr
    · refine ⟨Or.inl rfl, ?_⟩
      rw [← (h.calls c hcm).arg, read_empty _ hlen]; rfl
    · exact h.returned r hr
  | @hit j c cached hj hpc hlen hget hne =>
    have hcm := List.mem_of_getElem? hj
    refine ⟨entries_get h _, fun c' hc' => (h.calls c' (List.mem_of_mem_eraseIdx hc')).congr rfl (fun _ => id), h.frozen, ?_⟩
    intro r hr
    rcases List.mem_cons.mp hr with rfl | hr
    · obtain ⟨l, h1, _, h3⟩ := h.cache
      cases hk : st.cache.values[st.mem.read c.value]? with
      | none => rw [get_miss hk] at hget; cases hget
      | some e =>
        have hm := (h1.map _ e).mp hk
        rw [(h1.get_hit hk).2.2.1] at hget
        injection hget with hget
        rw [← hget]
        refine ⟨(h3 e hm.1).1, ?_⟩
        dsimp only
        rw [(h3 e hm.1).2, hm.2, (h.calls c hcm).arg]
    · exact h.returned r hr
  | @miss j c hj hpc hlen hget =>
    have hcm := List.mem_of_getElem? hj
    refine ⟨entries_get h _, ?_, h.frozen, h.returned⟩
    intro c' hc'
    rcases List.mem_or_eq_of_mem_set hc' with hc' | rfl
    · exact (h.calls c' hc').congr rfl (fun _ => id)
    · have := h.calls c hcm
      exact ⟨this.inside, this.arg, this.noCopy, fun key hk => by cases hk⟩
  | @keep j c hj hpc hcopy =>
    have hcm := List.mem_of_getElem? hj
    refine ⟨h.cache, ?_, h.frozen, h.returned⟩
    intro c' hc'
    rcases List.mem_or_eq_of_mem_set hc' with hc' | rfl
    · exact (h.calls c' hc').congr rfl (fun _ => id)
    · have := h.calls c hcm
      refine ⟨this.inside, this.arg, this.noCopy, ?_⟩
      intro key hk
      injection hk with hk
      subst hk
      exact ⟨this.noCopy hcopy, this.arg⟩
  | @copy j c hj hpc hcopy =>
    have hcm := List.mem_of_getElem? hj
    have old : ∀ s : Slice, s.block < st.mem.sizes.length →
        ((st.mem.alloc 0 c.value.len).1.write st.mem.sizes.length 0 (st.mem.read c.value)).read s = st.mem.read s := by
      intro s hs
      rw [read_write_avoid (Or.inl (by omega)), read_alloc _ hs]
    have new : ((st.mem.alloc 0 c.value.len).1.write st.mem.sizes.length 0 (st.mem.read c.value)).read (st.mem.alloc 0 c.value.len).2 =
        st.mem.read c.value := Mem.read_write _ (st.mem.alloc 0 c.value.len).2 _ (Mem.read_length _ _)
    have hle : st.mem.sizes.length ≤ ((st.mem.alloc 0 c.value.len).1.write st.mem.sizes.length 0 (st.mem.read c.value)).sizes.length := by
      simp [Mem.write_sizes, Mem.alloc]
    have oldStr : ∀ s, IsString st s →
        ((st.mem.alloc 0 c.value.len).1.write st.mem.sizes.length 0 (st.mem.read c.value)).read s = st.mem.read s := by
      intro s hs
      rcases hs with hs | hs
      · rw [read_empty _ hs, read_empty _ hs]
      · exact old s (h.frozen s hs)
    have hstr : ∀ s, IsString st s → s.len = 0 ∨ s ∈ (st.mem.alloc 0 c.value.len).2 :: st.frozen := by
      intro s hs; exact hs.imp id (List.mem_cons_of_mem _)
    refine ⟨?_, ?_, ?_, ?_⟩
    · obtain ⟨l, h1, h2, h3⟩ := h.cache
      refine ⟨l, h1, h2, fun e he => ⟨hstr _ (h3 e he).1, ?_⟩⟩
      exact (oldStr _ (h3 e he).1).trans (h3 e he).2
    · have keep : ∀ c' ∈ st.calls, ∀ pc, (∀ key, pc = LookupPc.ready key → (key.len = 0 ∨ key ∈ (st.mem.alloc 0 c.value.len).2 :: st.frozen) ∧
          ((st.mem.alloc 0 c.value.len).1.write st.mem.sizes.length 0 (st.mem.read c.value)).read key = c'.arg) →
          CallInv { st with
            mem := (st.mem.alloc 0 c.value.len).1.write st.mem.sizes.length 0 (st.mem.read c.value)
            frozen := (st.mem.alloc 0 c.value.len).2 :: st.frozen
            calls := st.calls.set j { c with pc := .ready (st.mem.alloc 0 c.value.len).2 } } { c' with pc } := by
        intro c' hc' pc hpc
        have := h.calls c' hc'
        exact ⟨Nat.lt_of_lt_of_le this.inside hle, (old _ this.inside).trans this.arg, fun hx => hstr _ (this.noCopy hx), hpc⟩
      intro c' hc'
      rcases List.mem_or_eq_of_mem_set hc' with hc' | rfl
      · refine keep c' hc' c'.pc ?_
        intro key hk
        have := (h.calls c' hc').ready key hk
        exact ⟨hstr _ this.1, (oldStr _ this.1).trans this.2⟩
      · refine keep c hcm _ ?_
        intro key hk
        injection hk with hk
        subst hk
        exact ⟨Or.inr (by simp), new.trans (h.calls c hcm).arg⟩
    · intro s hs
      rcases List.mem_cons.mp hs with rfl | hs
      · simp [Mem.write_sizes, Mem.alloc]
      · exact Nat.lt_of_lt_of_le (h.frozen s hs) hle
    · intro r hr
      have := h.returned r hr
      exact ⟨hstr _ this.1, (oldStr _ this.1).trans this.2⟩
  | @set j c key fuel cache hj hpc hset =>
    have hcm := List.mem_of_getElem? hj
    have hkey := (h.calls c hcm).ready key hpc
    refine ⟨entries_set h hset hkey.1, fun c' hc' => (h.calls c' (List.mem_of_mem_eraseIdx hc')).congr rfl (fun _ => id), h.frozen, ?_⟩
    intro r hr
    rcases List.mem_cons.mp hr with rfl | hr
    · exact hkey
    · exact h.returned r hr

theorem Interner.Reachable.inv {st : Interner} (h : st.Reachable) : InternerInv st := by
  induction h with
  | init => exact InternerInv.init
  | step _ hs ih => exact ih.step hs

/-- C17, C18: under every interleaving, every string returned so far has, now, the contents that the argument had at the time of the
call. Directly after the return this is C17; at all later times, while callers overwrite the buffers they may overwrite, it is C18. -/
theorem C17_interned_equals_argument (st : Interner) (h : st.Reachable) (r : Slice × Str) (hr : r ∈ st.returned) :
    st.mem.read r.1 = r.2 :=
  (h.inv.returned r hr).2

/-- C17: no call gets stuck: in every state, every running call can take a step; and no call takes more than three. -/
theorem C17_calls_proceed (st : Interner) (h : st.Reachable) (j : Nat) (c : Lookup) (hj : st.calls[j]? = some c) :
    ∃ st', Interner.Step st st' ∧ (st'.calls = st.calls.eraseIdx j ∨
      (∃ pc, st'.calls = st.calls.set j { c with pc } ∧
        ((c.pc = .start ∧ pc = .missed) ∨ (c.pc = .missed ∧ ∃ key, pc = .ready key)))) := by
  obtain ⟨copy, value, pc, arg⟩ := c
  cases pc with
  | start =>
    by_cases hlen : value.len = 0
    · exact ⟨_, .empty hj rfl hlen, Or.inl rfl⟩
    · cases hg : (st.cache.get (st.mem.read value)).2 with
      | none => exact ⟨_, .miss hj rfl hlen (by rw [hg]; intro _ hx; cases hx), Or.inr ⟨_, rfl, Or.inl ⟨rfl, rfl⟩⟩⟩
      | some cached =>
        by_cases hc : cached.2.len = 0
        · exact ⟨_, .miss hj rfl hlen (by rw [hg]; intro x hx; injection hx with hx; rw [← hx]; exact hc), Or.inr ⟨_, rfl, Or.inl ⟨rfl, rfl⟩⟩⟩
        · exact ⟨_, .hit hj rfl hlen hg hc, Or.inl rfl⟩
  | missed =>
    cases copy with
    | false => exact ⟨_, .keep hj rfl rfl, Or.inr ⟨_, rfl, Or.inr ⟨rfl, _, rfl⟩⟩⟩
    | true => exact ⟨_, .copy hj rfl rfl, Or.inr ⟨_, rfl, Or.inr ⟨rfl, _, rfl⟩⟩⟩
  | ready key =>
    obtain ⟨l, h1, h2, _⟩ := h.inv.cache
    have hset : ∃ fuel cache, st.cache.set fuel (st.mem.read key) key = some cache := by
      unfold Lru.set
      cases hv : st.cache.values[st.mem.read key]? with
      | some e => exact ⟨0, _, rfl⟩
      | none =>
        have := h1.ensure_ends (by rw [h2]; decide) l.length (Nat.le_refl _)
        obtain ⟨c1, h1⟩ := Option.isSome_iff_exists.mp this
        exact ⟨l.length, _, by rw [h1]; rfl⟩
    obtain ⟨fuel, cache, hset⟩ := hset
    exact ⟨_, .set hj rfl hset, Or.inl rfl⟩

/-- C18: what is in the cache never changes: the string found under a key has the contents of that key, in every state. -/
theorem C18_cached_keys_stable (st : Interner) (h : st.Reachable) (k : Str) (e : Nat) (he : st.cache.values[k]? = some e) :
    st.mem.read (st.cache.nodes e).data = k := by
  obtain ⟨l, h1, _, h3⟩ := h.inv.cache
  have hm := (h1.map k e).mp he
  rw [(h3 e hm.1).2, hm.2]

/-- C18: a string that was returned keeps its contents in all later states. -/
theorem C18_strings_never_change (st st' : Interner) (h : st.Reachable) (later : Interner.Later st st') (r : Slice × Str)
    (hr : r ∈ st.returned) : st'.mem.read r.1 = st.mem.read r.1 := by
  have key : st'.Reachable ∧ r ∈ st'.returned := by
    induction later with
    | refl => exact ⟨h, hr⟩
    | step _ hs ih =>
      refine ⟨ih.1.step hs, ?_⟩
      cases hs <;> first | exact ih.2 | exact List.mem_cons_of_mem _ ih.2
  rw [C17_interned_equals_argument st' key.1 r key.2, C17_interned_equals_argument st h r hr]

/-! Non-vacuity: a buffer is filled, interned by the copying variant, overwritten and interned again; both strings are there. -/

/-- From any state, a call with a buffer leads to a state in which its contents were returned. -/
theorem intern_completes (st : Interner) (h : st.Reachable) (hc : st.calls = []) (copy : Bool) (value : Slice)
    (hv : value.block < st.mem.sizes.length) :
    ∃ st' s, st'.Reachable ∧ st'.calls = [] ∧ st'.returned = (s, st.mem.read value) :: st.returned ∧
      Interner.Later st st' := by
  have proceed : ∀ (n : Nat) (st1 : Interner) (c : Lookup), st1.Reachable → Interner.Later st st1 → st1.calls = [c] → c.arg = st.mem.read value →
      st1.returned = st.returned →
      (c.pc = .start → 3 ≤ n) → (c.pc = .missed → 2 ≤ n) → 1 ≤ n →
      ∃ st' s, st'.Reachable ∧ st'.calls = [] ∧ st'.returned = (s, st.mem.read value) :: st.returned ∧ Interner.Later st st' := by
    intro n
    induction n with
    | zero => intro _ _ _ _ _ _ _ _ _ h; omega
    | succ n ih =>
      intro st1 c hr hlat hcs harg hret h1 h2 _
      obtain ⟨copy, value', pc, arg⟩ := c
      have hj : st1.calls[0]? = some ⟨copy, value', pc, arg⟩ := by rw [hcs]; rfl
      have herase : st1.calls.eraseIdx 0 = [] := by rw [hcs]; rfl
      dsimp only at harg h1 h2
      have done : ∀ {st2 : Interner} {s : Slice}, Interner.Step st1 st2 → st2.calls = [] → st2.returned = (s, arg) :: st1.returned →
          ∃ st' s, st'.Reachable ∧ st'.calls = [] ∧ st'.returned = (s, st.mem.read value) :: st.returned ∧ Interner.Later st st' := by
        intro st2 s hs hc2 hr2
        exact ⟨st2, s, hr.step hs, hc2, by rw [hr2, harg, hret], hlat.step hs⟩
      cases pc with
      | start =>
        have h3 := h1 rfl
        by_cases hlen : value'.len = 0
        · exact done (.empty hj rfl hlen) herase rfl
        · cases hg : (st1.cache.get (st1.mem.read value')).2 with
          | none =>
            have hs := Interner.Step.miss hj rfl hlen (by rw [hg]; intro _ hx; cases hx)
            exact ih _ { copyOnInsert := copy, value := value', pc := .missed, arg := arg } (hr.step hs) (hlat.step hs) (by dsimp only; rw [hcs]; rfl) harg hret (fun hx => by cases hx) (fun _ => by omega) (by omega)
          | some cached =>
            by_cases hcl : cached.2.len = 0
            · have hs := Interner.Step.miss hj rfl hlen (by rw [hg]; intro x hx; injection hx with hx; rw [← hx]; exact hcl)
              exact ih _ { copyOnInsert := copy, value := value', pc := .missed, arg := arg } (hr.step hs) (hlat.step hs) (by dsimp only; rw [hcs]; rfl) harg hret (fun hx => by cases hx) (fun _ => by omega) (by omega)
            · exact done (.hit hj rfl hlen hg hcl) herase rfl
      | missed =>
        have h3 := h2 rfl
        cases copy with
        | false =>
          have hs := Interner.Step.keep hj rfl rfl
          exact ih _ { copyOnInsert := false, value := value', pc := .ready value', arg := arg } (hr.step hs) (hlat.step hs) (by dsimp only; rw [hcs]; rfl) harg hret (fun hx => by cases hx) (fun hx => by cases hx) (by omega)
        | true =>
          have hs := Interner.Step.copy hj rfl rfl
          exact ih _ { copyOnInsert := true, value := value', pc := .ready (st1.mem.alloc 0 value'.len).2, arg := arg } (hr.step hs) (hlat.step hs) (by dsimp only; rw [hcs]; rfl) harg hret (fun hx => by cases hx) (fun hx => by cases hx) (by omega)
      | ready key =>
        obtain ⟨l, i1, i2, _⟩ := hr.inv.cache
        have hset : ∃ fuel cache, st1.cache.set fuel (st1.mem.read key) key = some cache := by
          unfold Lru.set
          cases hv : st1.cache.values[st1.mem.read key]? with
          | some e => exact ⟨0, _, rfl⟩
          | none =>
            have := i1.ensure_ends (by rw [i2]; decide) l.length (Nat.le_refl _)
            obtain ⟨c1, h1⟩ := Option.isSome_iff_exists.mp this
            exact ⟨l.length, _, by rw [h1]; rfl⟩
        obtain ⟨fuel, cache, hset⟩ := hset
        exact done (.set hj rfl hset) herase rfl
  have hs := Interner.Step.call st copy value hv
  exact proceed 3 _ { copyOnInsert := copy, value := value, pc := .start, arg := st.mem.read value } (h.step hs) (Interner.Later.refl.step hs)
    (by dsimp only; rw [hc]; rfl) rfl rfl (fun _ => Nat.le_refl _) (fun _ => by omega) (by omega)

/-- A history in which a goroutine allocates a buffer, writes to it, and interns it without copying; the string is there. -/
example : ∃ st s, Interner.Reachable st ∧ st.returned = [(s, b!"ab")] ∧ st.mem.read s = b!"ab" := by
  have h0 := Interner.Reachable.init
  have h1 := h0.step (.alloc _ 4)
  have h2 := h1.step (.write _ 0 1 b!"ab" (fun _ h => (List.not_mem_nil h).elim) (fun _ h => (List.not_mem_nil h).elim))
  obtain ⟨st, s, h3, _, h5, _⟩ := intern_completes _ h2 rfl true { block := 0, off := 1, len := 2, cap := 3 } (by decide)
  have h6 : st.returned = [(s, b!"ab")] := h5
  exact ⟨st, s, h3, h6, C17_interned_equals_argument st h3 (s, b!"ab") (by rw [h6]; simp)⟩

/-- A history in which the buffer is overwritten after it was interned with a copy: the string still is what it was. -/
example : ∃ st, Interner.Reachable st ∧ st.returned = [({ block := 1, off := 0, len := 2, cap := 2 }, b!"ab")] ∧
    st.mem.read { block := 0, off := 1, len := 2, cap := 3 } = b!"cd" ∧ st.mem.read { block := 1, off := 0, len := 2, cap := 2 } = b!"ab" := by
  have h0 := Interner.Reachable.init
  have h1 := h0.step (.alloc _ 4)
  have h2 := h1.step (.write _ 0 1 b!"ab" (fun _ h => (List.not_mem_nil h).elim) (fun _ h => (List.not_mem_nil h).elim))
  have h3 := h2.step (.call _ true { block := 0, off := 1, len := 2, cap := 3 } (by decide))
  have hget : ∀ k, (Lru.new (5 * 1024 * 1024) ({} : Slice)).get k = (Lru.new (5 * 1024 * 1024) {}, none) :=
    fun k => get_miss (by simp [Lru.new])
  have h4 := h3.step (.miss (j := 0) rfl rfl (by decide) (fun c hc => by
    have hx : ((Lru.new (5 * 1024 * 1024) ({} : Slice)).get b!"ab").2 = some c := hc
    rw [hget] at hx; cases hx))
  have h5 := h4.step (.copy (j := 0) rfl rfl rfl)
  have hset : ∀ (k : Str) (d : Slice), ((Lru.new (5 * 1024 * 1024) ({} : Slice)).get b!"ab").1.set 0 k d = some ((Lru.new (5 * 1024 * 1024) {}).insert k d) := by
    intro k d
    rw [hget]
    unfold Lru.set
    rw [show (Lru.new (5 * 1024 * 1024) ({} : Slice)).values[k]? = none by simp [Lru.new]]
    unfold Lru.ensureCacheSize
    rw [if_neg (by decide)]
    rfl
  have h6 := h5.step (.set (j := 0) (key := { block := 1, off := 0, len := 2, cap := 2 }) rfl rfl (hset _ _))
  have h7 := h6.step (.write _ 0 1 b!"cd" (by
    intro s hs
    have hs' : s = { block := 1, off := 0, len := 2, cap := 2 } := List.mem_singleton.mp hs
    rw [hs']
    exact Or.inl (by decide)) (fun _ h => (List.not_mem_nil h).elim))
  exact ⟨_, h7, rfl, rfl, rfl⟩

end Verif
