import Verif.Unroll
/-!
# C37: the generated loops visit every element exactly once, in order
-/

namespace Repro

/-- What a width may be: 0 for scalar code on complex numbers, otherwise the power of two
`bits of the register / bits of the type` (`src/gen/vectorizations.py:136, 302, 564`). -/
def TypeSize (ts : Nat) : Prop := ts = 0 ∨ ∃ a, ts = 2 ^ a

/-- The shape of the bodies executed: complete bodies have the maximal width or a power of two at least
the vector size, the partial load is shorter than a vector. -/
def Chunk.Shaped (ts maxUnroll : Nat) (c : Chunk) : Prop :=
  if c.part then 1 ≤ c.count ∧ c.count < ts
  else (c.count = maxUnroll ∨ ((∃ a, c.count = 2 ^ a) ∧ c.count ≤ maxUnroll)) ∧ ts ≤ c.count

structure LoopInv (ts maxUnroll n : Nat) (s : LoopState) : Prop where
  le : s.i ≤ n
  off : s.off = s.i
  vis : s.done.flatMap Chunk.elems = List.range s.i
  shape : ∀ c ∈ s.done, c.Shaped ts maxUnroll

/-- The state when everything has been visited. -/
structure LoopDone (ts maxUnroll n : Nat) (s : LoopState) : Prop where
  off : s.off = n
  vis : s.done.flatMap Chunk.elems = List.range n
  shape : ∀ c ∈ s.done, c.Shaped ts maxUnroll

theorem range_append' (a b : Nat) : List.range a ++ List.range' a b = List.range (a + b) := by
  rw [List.range_eq_range', List.range_eq_range']
  have := List.range'_append_1 (s := 0) (m := a) (n := b)
  simpa using this

theorem tail_run {ts maxUnroll n : Nat} (hts : TypeSize ts) : ∀ (fuel u : Nat) (s : LoopState), u ≤ fuel →
    LoopInv ts maxUnroll n s → u ≤ maxUnroll →
    ((u = 0 ∧ n - s.i < 1) ∨ ((∃ a, u = 2 ^ a) ∧ n - s.i < 2 * u)) →
    LoopDone ts maxUnroll n ((emitTail ts fuel u).foldl (Stmt.run n) s) := by
  intro fuel
  induction fuel with
  | zero =>
    intro u s hf hs hum hu
    have hi : s.i = n := by
      have := hs.le
      rcases hu with h | ⟨⟨a, ha⟩, h⟩
      · omega
      · have := Nat.two_pow_pos a; omega
    exact ⟨by rw [← hi, ← hs.off]; rfl, by rw [← hi, ← hs.vis]; rfl, hs.shape⟩
  | succ fuel ih =>
    intro u s hf hs hum hu
    unfold emitTail
    by_cases h0 : u = 0
    · rw [if_pos h0, List.foldl_nil]
      have hi : s.i = n := by
        have := hs.le
        rcases hu with h | ⟨⟨a, ha⟩, h⟩
        · omega
        · have := Nat.two_pow_pos a; omega
      exact ⟨by rw [hs.off, hi], by rw [hs.vis, hi], hs.shape⟩
    · rw [if_neg h0]
      obtain ⟨⟨a, ha⟩, hlt⟩ : (∃ a, u = 2 ^ a) ∧ n - s.i < 2 * u := by
        rcases hu with h | h
        · exact absurd h.1 h0
        · exact h
      by_cases hts' : u < ts
      · rw [if_pos hts', List.foldl_cons, List.foldl_nil]
        have hle : 2 * u ≤ ts := by
          rcases hts with h | ⟨b, hb⟩
          · omega
          · rw [ha, hb] at hts'
            have := (Nat.pow_lt_pow_iff_right (by omega : 1 < 2)).1 hts'
            rw [ha, hb, ← Nat.pow_succ']
            exact Nat.pow_le_pow_right (by omega) this
        simp only [Stmt.run]
        have hin := hs.le
        by_cases hin' : s.i < n
        · rw [if_pos hin']
          refine ⟨by show s.off + (n - s.i) = n; rw [hs.off]; omega, ?_, ?_⟩
          · show (s.done ++ [_]).flatMap Chunk.elems = _
            rw [List.flatMap_append, hs.vis, hs.off]
            simp only [List.flatMap_cons, List.flatMap_nil, List.append_nil, Chunk.elems]
            rw [range_append']; congr 1; omega
          · intro c hc
            rcases List.mem_append.1 hc with hc | hc
            · exact hs.shape c hc
            · have : c = ⟨s.off, n - s.i, true⟩ := by simpa using hc
              rw [this]; unfold Chunk.Shaped; rw [if_pos rfl]; dsimp only; omega
        · rw [if_neg hin']
          have : s.i = n := by omega
          exact ⟨by rw [hs.off, this], by rw [hs.vis, this], hs.shape⟩
      · rw [if_neg hts', List.foldl_cons]
        have hnext : nextUnroll u = u / 2 := by
          unfold nextUnroll; rw [ha, Nat.log2_two_pow]; simp
        apply ih _ _ (by have := nextUnroll_lt h0; omega)
        · simp only [Stmt.run]
          by_cases hin : s.i + u ≤ n
          · rw [if_pos hin]
            refine ⟨hin, by show s.off + u = s.i + u; rw [hs.off], ?_, ?_⟩
            · show (s.done ++ [_]).flatMap Chunk.elems = _
              rw [List.flatMap_append, hs.vis, hs.off]
              simp only [List.flatMap_cons, List.flatMap_nil, List.append_nil, Chunk.elems]
              rw [range_append']
            · intro c hc
              rcases List.mem_append.1 hc with hc | hc
              · exact hs.shape c hc
              · have : c = ⟨s.off, u, false⟩ := by simpa using hc
                rw [this]; unfold Chunk.Shaped
                rw [if_neg (by simp)]
                exact ⟨Or.inr ⟨⟨a, ha⟩, hum⟩, by dsimp only; omega⟩
          · rw [if_neg hin]; exact hs
        · rw [hnext]; omega
        · rw [hnext]
          have hi : n - (Stmt.run n s (.once u)).i < u := by
            simp only [Stmt.run]; split
            · show n - (s.i + u) < u; omega
            · omega
          cases a with
          | zero => left; rw [ha] at hi ⊢; omega
          | succ a =>
            right
            have e : u / 2 = 2 ^ a := by rw [ha, Nat.pow_succ]; omega
            have e2 : 2 * 2 ^ a = u := by rw [ha, Nat.pow_succ]; omega
            exact ⟨⟨a, e⟩, by rw [e, e2]; exact hi⟩

theorem loop_flat (step k : Nat) :
    ((List.range k).map (fun t => (⟨0 + step * t, step, false⟩ : Chunk))).flatMap Chunk.elems = List.range (step * k) := by
  induction k with
  | zero => simp
  | succ k ih =>
    rw [List.range_succ, List.map_append, List.flatMap_append, ih]
    simp only [List.map_cons, List.map_nil, List.flatMap_cons, List.flatMap_nil, List.append_nil, Chunk.elems, Nat.zero_add]
    rw [range_append', Nat.mul_succ]

theorem runUnrolled_done {ts maxUnroll n : Nat} (hts : TypeSize ts) (h1 : 1 ≤ maxUnroll)
    (hd : ts ∣ maxUnroll ∨ ts = 0) : LoopDone ts maxUnroll n (runUnrolled ts maxUnroll n) := by
  unfold runUnrolled emit
  have hu : maxUnroll / max ts 1 * max ts 1 = maxUnroll := by
    rcases hd with h | h
    · by_cases h0 : ts = 0
      · subst h0; have := Nat.eq_zero_of_zero_dvd h; omega
      · have : max ts 1 = ts := by omega
        rw [this]; exact Nat.div_mul_cancel h
    · subst h; simp
  simp only [hu]
  rw [if_neg (by omega), List.foldl_cons]
  have htsle : ts ≤ maxUnroll := by
    rcases hd with h | h
    · exact Nat.le_of_dvd (by omega) h
    · omega
  have hinv : LoopInv ts maxUnroll n (Stmt.run n ⟨0, 0, []⟩ (.loop maxUnroll maxUnroll)) := by
    refine ⟨Nat.mul_div_le n maxUnroll, by show 0 + _ = _; rw [Nat.zero_add]; rfl, ?_, ?_⟩
    · show ([] ++ _).flatMap Chunk.elems = _
      rw [List.nil_append, loop_flat]; rfl
    · intro c hc
      have hc : c ∈ [] ++ (List.range (n / maxUnroll)).map (fun t => (⟨0 + maxUnroll * t, maxUnroll, false⟩ : Chunk)) := hc
      rw [List.nil_append, List.mem_map] at hc
      obtain ⟨t, _, rfl⟩ := hc
      unfold Chunk.Shaped; rw [if_neg (by simp)]; exact ⟨Or.inl rfl, htsle⟩
  have hrem : n - (Stmt.run n ⟨0, 0, []⟩ (.loop maxUnroll maxUnroll)).i < maxUnroll := by
    show n - maxUnroll * (n / maxUnroll) < maxUnroll
    have := Nat.div_add_mod n maxUnroll
    have := Nat.mod_lt n (by omega : maxUnroll > 0)
    omega
  apply tail_run hts _ _ _ (Nat.le_of_lt (nextUnroll_lt (by omega))) hinv (Nat.le_of_lt (nextUnroll_lt (by omega)))
  unfold nextUnroll
  by_cases hp : 2 ^ Nat.log2 maxUnroll ≠ maxUnroll
  · rw [if_pos hp]
    right
    refine ⟨⟨_, rfl⟩, ?_⟩
    have : maxUnroll < 2 ^ (Nat.log2 maxUnroll + 1) := Nat.lt_log2_self
    rw [Nat.pow_succ] at this
    omega
  · rw [if_neg hp]
    have hp : 2 ^ Nat.log2 maxUnroll = maxUnroll := by omega
    cases hl : Nat.log2 maxUnroll with
    | zero => rw [hl] at hp; left; omega
    | succ a =>
      rw [hl] at hp
      right
      have e : maxUnroll / 2 = 2 ^ a := by rw [← hp, Nat.pow_succ]; omega
      have e2 : 2 * 2 ^ a = maxUnroll := by rw [← hp, Nat.pow_succ]; omega
      exact ⟨⟨a, e⟩, by rw [e, e2]; exact hrem⟩

/-- **C37.** For every register width, every maximal unroll width that is a multiple of it, and every
vector length, the code emitted by the generator loads exactly the elements `0, 1, ..., n-1`, each once
and in this order, and leaves the data pointers advanced by `n` elements. -/
theorem C37_every_element_once {ts maxUnroll n : Nat} (hts : TypeSize ts) (h1 : 1 ≤ maxUnroll)
    (hd : ts ∣ maxUnroll ∨ ts = 0) :
    (runUnrolled ts maxUnroll n).done.flatMap Chunk.elems = List.range n ∧
    (runUnrolled ts maxUnroll n).off = n :=
  ⟨(runUnrolled_done hts h1 hd).vis, (runUnrolled_done hts h1 hd).off⟩

/-- The partial vector load is only used for fewer elements than a vector holds, and complete bodies load
whole vectors (so that no load reaches behind the vector). -/
theorem C37_loads_in_bounds {ts maxUnroll n : Nat} (hts : TypeSize ts) (h1 : 1 ≤ maxUnroll)
    (hd : ts ∣ maxUnroll ∨ ts = 0) {c : Chunk} (hc : c ∈ (runUnrolled ts maxUnroll n).done) :
    c.off + c.count ≤ n ∧ 1 ≤ c.count ∧ (c.part = true → c.count < ts) ∧ (c.part = false → ts ∣ c.count ∨ ts = 0) := by
  have h := runUnrolled_done (n := n) hts h1 hd
  have hs := h.shape c hc
  have h1c : 1 ≤ c.count := by
    unfold Chunk.Shaped at hs
    split at hs
    · exact hs.1
    · rcases hs.1 with e | ⟨⟨a, e⟩, _⟩
      · omega
      · have := Nat.two_pow_pos a; omega
  refine ⟨?_, h1c, ?_, ?_⟩
  · have : c.off + (c.count - 1) ∈ List.range n := by
      rw [← h.vis, List.mem_flatMap]
      refine ⟨c, hc, ?_⟩
      unfold Chunk.elems; rw [List.mem_range']
      exact ⟨c.count - 1, by omega, by omega⟩
    have := List.mem_range.1 this
    omega
  · intro hp; unfold Chunk.Shaped at hs; rw [if_pos hp] at hs; exact hs.2
  · intro hp; unfold Chunk.Shaped at hs; rw [if_neg (by simp [hp])] at hs
    rcases hs.1 with e | ⟨⟨a, e⟩, _⟩
    · rw [e]; exact hd
    · rcases hts with h0 | ⟨b, hb⟩
      · exact Or.inr h0
      · left; rw [e, hb]; apply Nat.pow_dvd_pow
        have := hs.2; rw [e, hb] at this
        exact (Nat.pow_le_pow_iff_right (by omega : 1 < 2)).1 this

/-- AVX double with unroll width 3 * 4: 12, then 8, 4 and a partial load; 27 elements. -/
example : (emit 4 12 = [.loop 12 12, .once 8, .once 4, .rest]) ∧
    ((runUnrolled 4 12 27).done.map (fun c => (c.off, c.count, c.part))
      = [(0, 12, false), (12, 12, false), (24, 3, true)]) ∧ TypeSize 4 ∧ 4 ∣ 12 := by
  refine ⟨?_, ?_, Or.inr ⟨2, rfl⟩, by decide⟩
  · decide +kernel
  · decide +kernel

end Repro
