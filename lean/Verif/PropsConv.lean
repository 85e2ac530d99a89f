import Verif.ConvEqS
/-!
# Properties of the conversion back to floating point: C15 (conversion), C18, C19

`fold < 2^50` only excludes folds for which counting the additions would exceed a double; the library supports
`fold <= maxFold` (52 and 21).
-/

namespace Repro
open Fmt
variable {F : Fmt}

namespace Fmt

theorem ofUnits_neg [F.OK] {n : Int} (h : n ≠ 0) : F.ofUnits (-n) = fneg (F.ofUnits n) := by
  unfold ofUnits fneg
  rw [Int.natAbs_neg]
  congr 1
  by_cases hn : n < 0
  · simp [hn]; omega
  · simp [hn]; omega

theorem ofUnits_zero [F.OK] : F.ofUnits 0 = zero := by
  have h := ofUnits_good (F := F) (n := 0) (by rw [rndZ_zero]; exact pow_pos' _)
  rw [rndZ_zero] at h
  exact good_unique h good_zero

theorem convAcc_neg (ct bt : Nat → Int) (k i : Nat) :
    convAcc (fun j => - ct j) (fun j => - bt j) k i = - convAcc ct bt k i := by
  induction i with
  | zero => unfold convAcc; rw [rndZ_neg]
  | succ i ih =>
    unfold convAcc
    rw [ih, ← neg_add, rndZ_neg, ← neg_add, rndZ_neg]

theorem convTotal_neg (ct bt : Nat → Int) (k fold : Nat) :
    convTotal (fun j => - ct j) (fun j => - bt j) k fold = - convTotal ct bt k fold := by
  unfold convTotal; rw [convAcc_neg]; ring

theorem convAcc_zero {ct bt : Nat → Int} {k : Nat} (hc : ∀ j, k ≤ j → ct j = 0) (hb : ∀ j, k ≤ j → bt j = 0) (i : Nat) :
    convAcc ct bt k i = 0 := by
  induction i with
  | zero => unfold convAcc; rw [hc k (Nat.le_refl _), rndZ_zero]
  | succ i ih => unfold convAcc; rw [ih, hc _ (by omega), hb _ (by omega)]; simp [rndZ_zero]

/-- The conversion of a canonical state. -/
theorem convert_canon [F.OK] {fold k : Nat} {A : Nat → Int} (hfold : 2 ≤ fold) (hfold' : fold < 2 ^ 50) (hk : k ≤ F.maxIndex)
    (hA : ∀ j, (A j).natAbs ≤ F.capacity * 2 ^ (F.W - 1)) :
    convert F fold (F.canon fold k A) = F.ofUnits (rndZ 53 (convTotal (F.carTerm (fun j => A j / 2 ^ (F.p - 3)))
      (F.priTerm (fun j => A j % 2 ^ (F.p - 3))) k fold)) := by
  have hT := ipow_pos (F.p - 3)
  have e : F.canon fold k A = F.midZ fold k (fun j => A j % 2 ^ (F.p - 3)) (fun j => A j / 2 ^ (F.p - 3)) (fun _ => false) := by
    unfold canon; rw [mid_eq_midZ]
  have h3 : ((2 ^ (F.p - 3) : Nat) : Int) = 2 ^ (F.p - 3) := by push_cast; rfl
  have hB : ∀ j, (A j % 2 ^ (F.p - 3)).natAbs < 2 ^ (F.p - 3) + 0 * 2 ^ (F.W - 1) := by
    intro j
    have h1 := Int.emod_nonneg (A j) (ne_of_gt hT)
    have h2 := Int.emod_lt_of_pos (A j) hT
    omega
  rw [e]
  refine convert_eq hfold hfold' hk (fun j => win_of_bound (Nat.zero_le _) (hB j)) (fun j => ?_)
  refine car_of_bound (n := 0) (N := F.capacity) (Nat.zero_le _) (Nat.le_refl _) (hB j) (hA j) ?_
  have := Int.mul_ediv_add_emod (A j) (2 ^ (F.p - 3))
  rw [mul_comm] at this
  omega

theorem total_bound [F.OK] {xs : List Flt} (hx : ∀ x ∈ xs, F.Finite x) (j : Nat) : (F.total xs j).natAbs ≤ xs.length * 2 ^ (F.W - 1) := by
  induction xs with
  | nil => rw [total_nil]; simp
  | cons x xs ih =>
    have h1 := ih (fun y hy => hx y (List.mem_cons_of_mem _ hy))
    have h2 := slice_le (fits0_finite (hx x List.mem_cons_self)) j
    rw [total_cons, List.length_cons, Nat.add_mul, Nat.one_mul]
    omega

end Fmt

/-! ### C15 (conversion) -/

/-- **C15** (conversion). Converting a negated value gives the negated conversion (or a zero if the conversion is zero). -/
theorem C15_negate_convert [F.OK] {fold : Nat} (hfold : 2 ≤ fold) (hfold' : fold < 2 ^ 50) {h : Hist} (hl : h.Legal F)
    (hN : h.nums.length ≤ F.capacity) :
    convert F fold (F.dmnegate fold (h.eval F fold)) = fneg (convert F fold (h.eval F fold)) ∨
    (convert F fold (F.dmnegate fold (h.eval F fold)) = zero ∧ convert F fold (h.eval F fold) = zero) := by
  have hm := hist_mid (F := F) hfold h hl hN
  by_cases hs : h.seen = []
  · right
    rw [(hm.1 hs).1, negate_zero]
    have : convert F fold (dmsetzero fold) = zero := by
      unfold convert ssmconv ddmconv dmsetzero
      dsimp only
      rw [nth_setzero]
      have z0 : ∀ G : Fmt, [G.OK] → G.isNaNInf zero = false := by
        intro G _
        unfold isNaNInf zero
        have := emax_big (F := G); have := pow_pos' G.p
        simp; omega
      have hi : isZero zero = true := rfl
      rw [z0 F, z0 f32, hi]
      simp
    exact ⟨this, this⟩
  · obtain ⟨B, C, Z, h1, h2, h3, h4, h5, h6⟩ := hm.2.1 hs
    have hw := fun j => win_of_bound (F := F) (Nat.zero_le _) (h3 j)
    have hc := fun j => car_of_bound (F := F) (Nat.zero_le _) hN (h3 j) (h6 j) (h2 j)
    rw [h1]
    obtain ⟨Z', _, hneg⟩ := dmnegate_midZ (F := F) (fold := fold) (k := F.minIndex h.seen) (B := B) (C := C) (Z := Z)
      (by omega) h5 hw (fun j hj => (h4 j hj).2.2)
    rw [hneg, convert_eq hfold hfold' h5 hw hc,
      convert_eq hfold hfold' h5 (fun j => by have := hw j; unfold Win at *; omega) (fun j => by rw [Int.natAbs_neg]; exact hc j)]
    have e1 : F.carTerm (fun j => - C j) = fun j => - F.carTerm C j := by funext j; unfold carTerm; ring
    have e2 : F.priTerm (fun j => - B j) = fun j => - F.priTerm B j := by funext j; unfold priTerm; ring
    rw [e1, e2, convTotal_neg, rndZ_neg]
    by_cases h0 : rndZ 53 (convTotal (F.carTerm C) (F.priTerm B) (F.minIndex h.seen) fold) = 0
    · right; rw [h0, neg_zero, ofUnits_zero]; exact ⟨rfl, rfl⟩
    · left; exact ofUnits_neg h0

/-- The stronger reading of C15, "the conversion of the sum of the negated numbers is the negated conversion", is false
of the code: summing the negated numbers and converting differs in the last bit from negating the converted sum.
The numbers are `(2^23-1)*2^25`, `2^-15` and `2^-55`, added with fold 3. -/
theorem C15_conversion_not_odd :
    let xs := [f64.mul (f64.ofInt (2 ^ 23 - 1)) (f64.pow2 25), f64.pow2 (-15), f64.pow2 (-55)]
    convert f64 3 (f64.sumSeq 3 (xs.map fneg) (dmsetzero 3)) ≠ fneg (convert f64 3 (f64.sumSeq 3 xs (dmsetzero 3))) ∧
    convert f64 3 (f64.dmnegate 3 (f64.sumSeq 3 xs (dmsetzero 3))) = fneg (convert f64 3 (f64.sumSeq 3 xs (dmsetzero 3))) := by
  decide +kernel

/-! ### C19 -/

/-- **C19.** Any program (sequential sums, merges, blocks, negations followed by an addition, ...) whose numbers
are a list `l` together with its negation, in any order, converts to `+0.0`. -/
theorem C19_cancellation [F.OK] {fold : Nat} (hfold : 2 ≤ fold) (hfold' : fold < 2 ^ 50) {h : Hist} (hl : h.Legal F) (hs : h.Settled)
    (hN : h.nums.length ≤ F.capacity) {l : List Flt} (hp : h.nums.Perm (l ++ l.map fneg)) (hf : ∀ x ∈ l, F.Finite x) :
    convert F fold (h.eval F fold) = zero := by
  rw [hist_spec hfold hl hN hs]
  unfold Hist.spec
  split
  · unfold convert ssmconv ddmconv dmsetzero
    dsimp only
    rw [nth_setzero]
    have z0 : ∀ G : Fmt, [G.OK] → G.isNaNInf zero = false := by
      intro G _
      unfold isNaNInf zero
      have := emax_big (F := G); have := pow_pos' G.p
      simp; omega
    have hi : isZero zero = true := rfl
    rw [z0 F, z0 f32, hi]
    simp
  · have hA : F.total h.nums = fun _ => 0 := by
      funext j
      rw [total_perm hp, total_append, total_map_fneg]; ring
    rw [hA, convert_canon hfold hfold' (minIndex_le _) (fun j => Nat.zero_le _)]
    have e1 : convTotal (F.carTerm (fun _ => (0 : Int) / 2 ^ (F.p - 3))) (F.priTerm (fun _ => (0 : Int) % 2 ^ (F.p - 3))) (F.minIndex h.seen) fold = 0 := by
      unfold convTotal
      rw [convAcc_zero]
      · unfold priTerm; simp
      · intro j _; unfold carTerm; simp
      · intro j _; unfold priTerm; simp
    rw [e1, rndZ_zero, ofUnits_zero]

/-- **C19** for plain sequences: empty sums, zeros, and exact cancellation in any order. -/
theorem C19_sequences [F.OK] {fold : Nat} (hfold : 2 ≤ fold) (hfold' : fold < 2 ^ 50) :
    convert F fold (dmsetzero fold) = zero ∧
    (∀ zs : List Flt, (∀ z ∈ zs, z.mag = 0) → zs.length ≤ F.capacity → convert F fold (F.sumSeq fold zs (dmsetzero fold)) = zero) ∧
    (∀ l xs : List Flt, xs.Perm (l ++ l.map fneg) → (∀ x ∈ l, F.Finite x) → xs.length ≤ F.capacity →
      convert F fold (F.sumSeq fold xs (dmsetzero fold)) = zero) := by
  have main : ∀ l xs : List Flt, xs.Perm (l ++ l.map fneg) → (∀ x ∈ l, F.Finite x) → xs.length ≤ F.capacity →
      convert F fold (F.sumSeq fold xs (dmsetzero fold)) = zero := by
    intro l xs hp hf hN
    have hfx : ∀ x ∈ xs, F.Finite x := by
      intro x hx
      rcases List.mem_append.1 (hp.mem_iff.1 hx) with h | h
      · exact hf x h
      · obtain ⟨y, hy, rfl⟩ := List.mem_map.1 h; exact hf y hy
    have := C19_cancellation (F := F) (h := Hist.ofList xs .zero) hfold hfold' (ofList_legal hfx trivial)
      (ofList_settled xs (fun _ => trivial)) (by rw [ofList_nums]; simpa [Hist.nums] using hN) (l := l)
      (by rw [ofList_nums]; simp only [Hist.nums, List.append_nil]; exact (List.reverse_perm xs).trans hp) hf
    rw [ofList_eval] at this
    exact this
  refine ⟨?_, ?_, main⟩
  · exact main [] [] (List.Perm.refl _) (by simp) (Nat.zero_le _)
  · intro zs hz hN
    have hfx : ∀ x ∈ zs, F.Finite x := by
      intro x hx; unfold Finite; rw [hz x hx]; have := emax_big (F := F); have := pow_pos' F.p; omega
    rw [C01_sum_is_spec hfold hfx hN]
    unfold specSum
    split
    · exact main [] [] (List.Perm.refl _) (by simp) (Nat.zero_le _)
    · have hA : F.total zs = fun _ => 0 := by
        funext j
        have key : ∀ l : List Flt, (∀ z ∈ l, z.mag = 0) → F.total l j = 0 := by
          intro l hl
          induction l with
          | nil => exact total_nil j
          | cons z l ih =>
            rw [total_cons, ih (fun y hy => hl y (List.mem_cons_of_mem _ hy))]
            have : F.toInt z = 0 := by
              unfold toInt; rw [hl z List.mem_cons_self, val_eq_zero.2 rfl]; simp
            have h2 := slice_neg (F := F) 0 j
            rw [neg_zero] at h2
            rw [this]; omega
        exact key zs hz
      rw [hA, convert_canon hfold hfold' (minIndex_le _) (fun j => Nat.zero_le _)]
      have e1 : convTotal (F.carTerm (fun _ => (0 : Int) / 2 ^ (F.p - 3))) (F.priTerm (fun _ => (0 : Int) % 2 ^ (F.p - 3))) (F.minIndex zs) fold = 0 := by
        unfold convTotal
        rw [convAcc_zero]
        · unfold priTerm; simp
        · intro j _; unfold carTerm; simp
        · intro j _; unfold priTerm; simp
      rw [e1, rndZ_zero, ofUnits_zero]

/-- A case in which native summation does not cancel: `2^60 + 1 - 2^60 - 1`, in three programs. -/
example : [f64.pow2 60, f64.pow2 0, fneg (f64.pow2 60), fneg (f64.pow2 0)].Perm
      ([f64.pow2 60, f64.pow2 0] ++ [f64.pow2 60, f64.pow2 0].map fneg) ∧
    convert f64 3 (f64.sumSeq 3 [f64.pow2 60, f64.pow2 0, fneg (f64.pow2 60), fneg (f64.pow2 0)] (dmsetzero 3)) = zero := by
  refine ⟨List.Perm.refl _, by decide +kernel⟩

end Repro
