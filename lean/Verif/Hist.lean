import Verif.Refine
/-!
# Histories: everything a program can do with real binned values

A history is a term built from the public operations. `eval` runs the model of the code; the
specification only looks at the numbers that were added (with their signs after later negations) and
at all the numbers that were added or used as bounds.
-/

namespace Repro

/-- A program over binned values of one fold: `zero` = `binned_dmsetzero`, `add` = `binned_dmdadd`,
`update` = `binned_dmdupdate`, `batch b xs` = update with the bound `b`, deposit the `xs`, renormalise
once (`include/binned.h:309-342` describes this protocol), `merge X Y` = `Y += X`
(`binned_dmdmadd`), `negate` = `binned_dmnegate`, `renorm` = `binned_dmrenorm`. -/
inductive Hist where
  | zero
  | add (x : Flt) (h : Hist)
  | update (x : Flt) (h : Hist)
  | batch (b : Flt) (xs : List Flt) (h : Hist)
  | merge (h₁ h₂ : Hist)
  | negate (h : Hist)
  | renorm (h : Hist)

namespace Fmt
variable (F : Fmt)

/-- Deposit a list of numbers one after the other (`binned_dmddeposit` in a loop). -/
def deposits (xs : List Flt) (y : Binned) : Binned :=
  xs.foldl (fun y x => ⟨F.dmddeposit x y.pri, y.car⟩) y

/-- Add a list of numbers one after the other (`binned_dmdadd` in a loop). -/
def sumSeq (fold : Nat) (xs : List Flt) (y : Binned) : Binned :=
  xs.foldl (fun y x => F.dmdadd fold x y) y

end Fmt

namespace Hist

/-- Run a history with the operations of the library. -/
def eval (F : Fmt) (fold : Nat) : Hist → Binned
  | zero => Fmt.dmsetzero fold
  | add x h => F.dmdadd fold x (h.eval F fold)
  | update x h => F.dmdupdate fold x (h.eval F fold)
  | batch b xs h => F.dmrenorm (F.deposits xs (F.dmdupdate fold b (h.eval F fold)))
  | merge h₁ h₂ => F.dmdmadd fold (h₁.eval F fold) (h₂.eval F fold)
  | negate h => F.dmnegate fold (h.eval F fold)
  | renorm h => F.dmrenorm (h.eval F fold)

/-- The numbers summed by a history, with the sign they count with. -/
def nums : Hist → List Flt
  | zero => []
  | add x h => x :: h.nums
  | update _ h => h.nums
  | batch _ xs h => xs ++ h.nums
  | merge h₁ h₂ => h₁.nums ++ h₂.nums
  | negate h => h.nums.map Fmt.fneg
  | renorm h => h.nums

/-- All numbers that a history has seen, as summands or as bounds. -/
def seen : Hist → List Flt
  | zero => []
  | add x h => x :: h.seen
  | update x h => x :: h.seen
  | batch b xs h => b :: xs ++ h.seen
  | merge h₁ h₂ => h₁.seen ++ h₂.seen
  | negate h => h.seen
  | renorm h => h.seen

/-- Legal histories: summands are finite, a batch respects its bound (the index of the bound is at most
the index of the deposited numbers, which `|x| <= |b|` implies, see `dindex_mono`) and the endurance. -/
def Legal (F : Fmt) : Hist → Prop
  | zero => True
  | add x h => F.Finite x ∧ h.Legal F
  | update _ h => h.Legal F
  | batch b xs h => (∀ x ∈ xs, F.Finite x ∧ F.dindex b ≤ F.dindex x) ∧ xs.length ≤ F.endurance ∧ h.Legal F
  | merge h₁ h₂ => h₁.Legal F ∧ h₂.Legal F
  | negate h => h.Legal F
  | renorm h => h.Legal F

/-- The last thing done to the value was not a negation (a merge with a zero value, an update, do
nothing to the totals). Negation leaves the primaries below their reference values; the next
addition, merge or renormalisation puts them back. -/
def Settled : Hist → Prop
  | zero => True
  | add _ _ => True
  | update _ h => h.Settled
  | batch _ _ _ => True
  | merge h₁ h₂ => (h₁.seen = [] → h₂.Settled) ∧ (h₂.seen = [] → h₁.Settled)
  | negate h => h.seen = []
  | renorm _ => True

/-- What a history must leave behind: zero if nothing was seen, otherwise the canonical value whose
index is the smallest index seen and whose bins hold the exact totals of the slices. -/
def spec (F : Fmt) (fold : Nat) (h : Hist) : Binned :=
  if h.seen = [] then Fmt.dmsetzero fold
  else F.canon fold (F.minIndex h.seen) (F.total h.nums)

end Hist

namespace Fmt
variable {F : Fmt}

theorem capacity_pos [F.OK] : 1 ≤ F.capacity := by
  have e := endurance_pos (F := F)
  unfold capacity
  have : 2 ^ 1 ≤ 2 ^ (F.p - 1) := Nat.pow_le_pow_right (by omega) (by have := F.facts; omega)
  exact Nat.mul_pos e (by omega)

/-- Index is monotone in the magnitude. -/
theorem dindex_mono [F.OK] {x y : Flt} (hx : F.Finite x) (hy : F.Finite y)
    (h : F.val x.mag ≤ F.val y.mag) : F.dindex y ≤ F.dindex x := by
  have ⟨hp, hW, hWp, _, he, he1, hb, het, _⟩ := F.facts
  by_contra hc
  have h1 := dindex_upper (F := F) hy
  have h2 := dindex_lower (F := F) hx (by have := dindex_le_max (F := F) y; omega)
  have h3 : F.W * (F.dindex x + 1) ≤ F.W * F.dindex y := Nat.mul_le_mul_left _ (by omega)
  have h4 : 2 ^ (F.eta + F.maxExp - F.W * F.dindex y) ≤ 2 ^ (F.eta + F.maxExp - F.W * (F.dindex x + 1)) :=
    Nat.pow_le_pow_right (by omega) (by omega)
  omega

theorem Mid.deposits [F.OK] {fold k : Nat} (hfold : 2 ≤ fold) : ∀ (xs : List Flt) {n N : Nat} {A : Nat → Int} {y : Binned},
    F.Mid fold n N k A y → n + xs.length ≤ F.endurance → (∀ x ∈ xs, F.Finite x ∧ k ≤ F.dindex x) →
    F.Mid fold (n + xs.length) (N + xs.length) k (fun j => A j + F.total xs j) (F.deposits xs y) := by
  intro xs
  induction xs with
  | nil => intro n N A y h _ _; simpa [total_nil, Fmt.deposits] using h
  | cons x xs ih =>
    intro n N A y h hn hx
    rw [List.length_cons] at hn
    have hx0 := hx x List.mem_cons_self
    have h1 := h.deposit (x := x) hfold (by omega) hx0.1 (fits_mono hx0.2 (fits_dindex hx0.1))
    have h2 := ih h1 (by omega) (fun z hz => hx z (List.mem_cons_of_mem _ hz))
    have e : (fun j => A j + F.slice (F.toInt x) j + F.total xs j) = (fun j => A j + F.total (x :: xs) j) := by
      funext j; rw [total_cons]; ring
    rw [e] at h2
    have e1 : n + 1 + xs.length = n + (x :: xs).length := by rw [List.length_cons]; omega
    have e2 : N + 1 + xs.length = N + (x :: xs).length := by rw [List.length_cons]; omega
    rw [e1, e2] at h2
    exact h2

/-- **Main refinement theorem.** -/
theorem hist_mid [F.OK] {fold : Nat} (hfold : 2 ≤ fold) (h : Hist) : h.Legal F → h.nums.length ≤ F.capacity →
    (h.seen = [] → h.eval F fold = dmsetzero fold ∧ h.nums = []) ∧
    (h.seen ≠ [] → F.Mid fold 0 h.nums.length (F.minIndex h.seen) (F.total h.nums) (h.eval F fold)) ∧
    (h.Settled → h.eval F fold = h.spec F fold) := by
  have hcap := capacity_pos (F := F)
  induction h with
  | zero => intro _ _; simp [Hist.seen, Hist.eval, Hist.nums, Hist.spec]
  | add x h ih =>
    intro hl hN
    simp only [Hist.nums, List.length_cons, Hist.seen] at hN ⊢
    have ih := ih hl.2 (by omega)
    have key : F.dmdadd fold x (h.eval F fold) = F.canon fold (F.minIndex (x :: h.seen)) (F.total (x :: h.nums)) ∧
        F.Mid fold 0 (h.nums.length + 1) (F.minIndex (x :: h.seen)) (F.total (x :: h.nums)) (F.dmdadd fold x (h.eval F fold)) := by
      by_cases hs : h.seen = []
      · obtain ⟨e1, e2⟩ := ih.1 hs
        rw [e1, e2, hs]
        have := add_zero_value (F := F) hfold hl.1
        have e3 : F.minIndex [x] = F.dindex x := by
          rw [minIndex_cons]; have := dindex_le_max (F := F) x
          show min _ F.maxIndex = _; omega
        have e4 : F.total [x] = fun j => F.slice (F.toInt x) j := by
          funext j; rw [total_cons, total_nil, add_zero]
        rw [e3, e4]; exact this
      · have := (ih.2.1 hs).add (x := x) hfold hN hl.1
        have e3 : min (F.minIndex h.seen) (F.dindex x) = F.minIndex (x :: h.seen) := by rw [minIndex_cons]; omega
        have e4 : (fun j => F.total h.nums j + F.slice (F.toInt x) j) = F.total (x :: h.nums) := by
          funext j; rw [total_cons]; ring
        rw [e3, e4] at this; exact this
    refine ⟨by simp, fun _ => key.2, fun _ => ?_⟩
    unfold Hist.spec
    rw [if_neg (by simp [Hist.seen])]
    exact key.1
  | update x h ih =>
    intro hl hN
    have ih := ih hl hN
    simp only [Hist.nums, Hist.seen]
    refine ⟨by simp, ?_, ?_⟩
    · intro _
      by_cases hs : h.seen = []
      · obtain ⟨e1, e2⟩ := ih.1 hs
        simp only [Hist.eval]
        rw [e1, e2, hs]
        have e3 : F.minIndex [x] = F.dindex x := by
          rw [minIndex_cons]; have := dindex_le_max (F := F) x
          show min _ F.maxIndex = _; omega
        rw [e3]; exact mid_empty
      · have := (ih.2.1 hs).update (x := x) (by omega) (Nat.zero_le _)
        have e3 : min (F.minIndex h.seen) (F.dindex x) = F.minIndex (x :: h.seen) := by rw [minIndex_cons]; omega
        rw [e3] at this; exact this
    · intro hset
      have he := ih.2.2 hset
      unfold Hist.spec
      rw [if_neg (by simp [Hist.seen])]
      simp only [Hist.eval, Hist.seen, Hist.nums]
      by_cases hs : h.seen = []
      · obtain ⟨e1, e2⟩ := ih.1 hs
        rw [e1, e2, hs]
        have e3 : F.minIndex [x] = F.dindex x := by
          rw [minIndex_cons]; have := dindex_le_max (F := F) x
          show min _ F.maxIndex = _; omega
        rw [e3]; exact dmdupdate_setzero
      · have hm := ih.2.1 hs
        rw [he]
        unfold Hist.spec
        rw [if_neg hs, update_canon (by omega) (minIndex_le _) hm.zeros, minIndex_cons, Nat.min_comm]
  | batch b xs h ih =>
    intro hl hN
    obtain ⟨hfit, hlen, hl⟩ := hl
    simp only [Hist.nums, List.length_append] at hN
    have ih := ih hl (by omega)
    have hmi : F.minIndex xs ≥ min (F.dindex b) F.maxIndex := by
      clear hN hlen
      induction xs with
      | nil => show F.maxIndex ≥ _; omega
      | cons z zs ihz =>
        rw [minIndex_cons]
        have := ihz (fun x hx => hfit x (List.mem_cons_of_mem _ hx))
        have := (hfit z List.mem_cons_self).2
        omega
    have hb' := dindex_le_max (F := F) b
    have e3 : F.minIndex (b :: xs ++ h.seen) = min (F.minIndex h.seen) (F.dindex b) := by
      rw [minIndex_append, minIndex_cons]; omega
    have hstart : F.Mid fold 0 h.nums.length (F.minIndex (b :: xs ++ h.seen)) (F.total h.nums)
        (F.dmdupdate fold b (h.eval F fold)) := by
      by_cases hs : h.seen = []
      · obtain ⟨e1, e2⟩ := ih.1 hs
        rw [e1, e2, e3, hs]
        have e4 : min (F.minIndex []) (F.dindex b) = F.dindex b := by
          show min F.maxIndex _ = _; omega
        rw [e4]; exact mid_empty
      · rw [e3]; exact (ih.2.1 hs).update (by omega) (Nat.zero_le _)
    have hd := Mid.deposits hfold xs hstart (by omega) (fun x hx => ⟨(hfit x hx).1, by
      have := (hfit x hx).2; rw [e3]; omega⟩)
    have e5 : (fun j => F.total h.nums j + F.total xs j) = F.total (xs ++ h.nums) := by
      funext j; rw [total_append]; ring
    rw [e5] at hd
    have hr := hd.renorm (by omega) (by omega) (by omega)
    have key : (Hist.batch b xs h).eval F fold = F.canon fold (F.minIndex (b :: xs ++ h.seen)) (F.total (xs ++ h.nums)) := hr
    refine ⟨by simp [Hist.seen], fun _ => ?_, fun _ => ?_⟩
    · rw [key]
      have hz := hd.zeros
      obtain ⟨_, _, _, _, _, _, _, h5, h6⟩ := hd
      refine mid_canon h5 hz ?_
      intro j
      have := h6 j
      simp only [Hist.nums, List.length_append]
      rw [Nat.add_comm xs.length]
      exact this
    · rw [key]; unfold Hist.spec
      rw [if_neg (by simp [Hist.seen])]; rfl
  | merge h₁ h₂ ih₁ ih₂ =>
    intro hl hN
    simp only [Hist.nums, List.length_append] at hN
    have ih₁ := ih₁ hl.1 (by omega)
    have ih₂ := ih₂ hl.2 (by omega)
    simp only [Hist.seen, List.append_eq_nil_iff]
    by_cases s1 : h₁.seen = []
    · obtain ⟨e1, e2⟩ := ih₁.1 s1
      have ev : (Hist.merge h₁ h₂).eval F fold = h₂.eval F fold := by
        simp only [Hist.eval]; rw [e1]; exact merge_zero_left _
      have en : (Hist.merge h₁ h₂).nums = h₂.nums := by simp [Hist.nums, e2]
      rw [ev, en, s1, List.nil_append]
      refine ⟨fun hs => ih₂.1 hs.2, fun hs => ih₂.2.1 (by simpa using hs), fun hs => ?_⟩
      rw [ih₂.2.2 (hs.1 s1)]
      unfold Hist.spec
      simp only [Hist.seen, s1, List.nil_append, en]
    · by_cases s2 : h₂.seen = []
      · obtain ⟨e1, e2⟩ := ih₂.1 s2
        have hm := ih₁.2.1 s1
        have ev : (Hist.merge h₁ h₂).eval F fold = h₁.eval F fold := by
          simp only [Hist.eval]; rw [e1]; exact merge_zero_right _ (hm.not_zero (by omega) (Nat.zero_le _))
        have en : (Hist.merge h₁ h₂).nums = h₁.nums := by simp [Hist.nums, e2]
        rw [ev, en, s2, List.append_nil]
        refine ⟨fun hs => absurd hs.1 s1, fun _ => hm, fun hs => ?_⟩
        rw [ih₁.2.2 (hs.2 s2)]
        unfold Hist.spec
        simp only [Hist.seen, s2, List.append_nil, en]
      · have hm := Mid.merge hfold (ih₁.2.1 s1) (ih₂.2.1 s2) hN
        have e5 : (fun j => F.total h₁.nums j + F.total h₂.nums j) = F.total (h₁.nums ++ h₂.nums) := by
          funext j; rw [total_append]
        rw [← minIndex_append, e5] at hm
        refine ⟨fun hs => absurd hs.1 s1, fun _ => ?_, fun _ => ?_⟩
        · simp only [Hist.nums, List.length_append]; exact hm.2
        · unfold Hist.spec
          rw [if_neg (by simp [Hist.seen, s1])]
          exact hm.1
  | negate h ih =>
    intro hl hN
    simp only [Hist.nums, List.length_map] at hN
    have ih := ih hl hN
    simp only [Hist.seen, Hist.nums, Hist.eval, List.length_map]
    refine ⟨?_, ?_, ?_⟩
    · intro hs
      obtain ⟨e1, e2⟩ := ih.1 hs
      rw [e1, e2, negate_zero]; exact ⟨rfl, rfl⟩
    · intro hs
      have := (ih.2.1 hs).negate hfold (Nat.zero_le _)
      have e : F.total (h.nums.map fneg) = fun j => - F.total h.nums j := by
        funext j; exact total_map_fneg _ _
      rw [e]; exact this
    · intro hs
      have hs' : h.seen = [] := hs
      obtain ⟨e1, e2⟩ := ih.1 hs'
      unfold Hist.spec
      simp only [Hist.seen, hs', if_true]
      rw [e1, negate_zero]
  | renorm h ih =>
    intro hl hN
    simp only [Hist.nums] at hN
    have ih := ih hl hN
    simp only [Hist.seen, Hist.nums, Hist.eval]
    refine ⟨?_, ?_, ?_⟩
    · intro hs
      obtain ⟨e1, e2⟩ := ih.1 hs
      refine ⟨?_, e2⟩
      rw [e1]; unfold dmrenorm dmsetzero; dsimp only; rw [nth_setzero]; rfl
    · intro hs
      have hm := ih.2.1 hs
      rw [hm.renorm (by omega) (Nat.zero_le _) hN]
      have hz := hm.zeros
      obtain ⟨_, _, _, _, _, _, _, h5, h6⟩ := hm
      exact mid_canon h5 hz h6
    · intro _
      show _ = h.spec F fold
      unfold Hist.spec
      by_cases hs : h.seen = []
      · rw [if_pos hs, (ih.1 hs).1]
        unfold dmrenorm dmsetzero; dsimp only; rw [nth_setzero]; rfl
      · rw [if_neg hs]
        exact (ih.2.1 hs).renorm (by omega) (Nat.zero_le _) hN

/-- **Every settled history leaves the bits of its specification.** -/
theorem hist_spec [F.OK] {fold : Nat} (hfold : 2 ≤ fold) {h : Hist} (hl : h.Legal F)
    (hN : h.nums.length ≤ F.capacity) (hs : h.Settled) : h.eval F fold = h.spec F fold :=
  (hist_mid hfold h hl hN).2.2 hs

theorem hist_spec_congr {fold : Nat} {h g : Hist} (hn : h.nums.Perm g.nums) (hs : h.seen.Perm g.seen) :
    h.spec F fold = g.spec F fold := by
  unfold Hist.spec
  have e : h.seen = [] ↔ g.seen = [] := by
    constructor
    · intro hh; rw [hh] at hs; exact hs.symm.eq_nil
    · intro hh; rw [hh] at hs; exact hs.eq_nil
  by_cases hx : h.seen = []
  · rw [if_pos hx, if_pos (e.1 hx)]
  · rw [if_neg hx, if_neg (fun hh => hx (e.2 hh)), minIndex_perm hs]
    congr 1; funext j; exact total_perm hn j

end Fmt
end Repro
