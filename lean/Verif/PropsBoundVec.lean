import Verif.PropsBound
import Verif.PropsVec

/-!
# C17 for the routines: the bound function bounds the error of the native sum, absolute sum and dot product

The bound is called the way its documentation says: with the number of summands, the largest absolute value (as returned by
the maximum routines) and the computed result.
-/

namespace Repro
open Fmt

variable {F : Fmt}

/-- Only the absolute value of the maximum matters. -/
theorem bound_fabs (fold N : Nat) {X X' : Flt} (S : Flt) (h : fabs X = fabs X') : bound F fold N X S = bound F fold N X' S := by
  unfold bound sbbound dbbound boundIn64
  have hm : X.mag = X'.mag := by have := congrArg Flt.mag h; exact this
  have hw : fabs (widen X) = fabs (widen X') := by
    unfold widen fabs
    unfold isNaN isInf
    rw [hm]
    split
    · rfl
    · split <;> rfl
  rw [h, hw]

/-- The bound with the maximum returned by the maximum routine. -/
theorem bound_list [F.OK] {T' : Tune} (hT' : T'.OK F) {fold : Nat} (hfold : 2 ≤ fold) (hfold' : fold < 2 ^ 50) {xs : List Flt} {S : Flt}
    (hne : xs ≠ []) (hx : ∀ x ∈ xs, F.Finite x) (hN1 : xs.length < 2 ^ 31) (hN2 : xs.length ≤ 2 ^ (F.p + 1) + 1)
    (hS : S = convert F fold (F.specSum fold xs)) (hSf : F.Finite S)
    (hcase : (F.minIndex xs + fold - 1 ≤ F.maxIndex ∧ F.W * (fold - 1) ≤ 1074) ∨
      (∀ x ∈ xs, (2 ^ F.uexp (F.minIndex xs + fold - 1) : Int) ∣ F.toInt x)) :
    AtLeast F (bound F fold xs.length (F.damax T' xs) S) ((F.toInt S - F.exactSum xs).natAbs : Int) := by
  obtain ⟨X, hXm, hXe⟩ := maxMag_mem hne
  have e : F.damax T' xs = ⟨false, maxMag xs⟩ := damax_eq hT' (fun x h => finite_not_nan (hx x h))
  have hcap : xs.length ≤ F.capacity := by
    have : 2 ^ 31 ≤ F.capacity := by rcases ‹F.OK›.isDoubleOrFloat with h | h <;> rw [h] <;> decide
    omega
  rw [e, bound_fabs (X' := X) fold xs.length S (by unfold fabs; rw [hXe])]
  exact C17_bound_partial hfold hfold' hXm (fun x h => val_mono (hXe ▸ le_maxMag h)) hx hN1 hN2
    (by rw [C01_sum_is_spec hfold hx hcap]; exact hS) hSf hcase

/-- `xs` is a list of summands the bound function covers: not empty, finite, not too many, and either the accumulators do not
reach below the smallest bin (and the factor of the bound does not underflow) or nothing is dropped. -/
def BoundOK (F : Fmt) (fold : Nat) (xs : List Flt) : Prop :=
  xs ≠ [] ∧ (∀ x ∈ xs, F.Finite x) ∧ xs.length < 2 ^ 31 ∧ xs.length ≤ 2 ^ (F.p + 1) + 1 ∧
    ((F.minIndex xs + fold - 1 ≤ F.maxIndex ∧ F.W * (fold - 1) ≤ 1074) ∨
      (∀ x ∈ xs, (2 ^ F.uexp (F.minIndex xs + fold - 1) : Int) ∣ F.toInt x))

/-- **C17** for the routines: `dbbound(fold, N, damax(N, X), rdsum(N, X))` bounds the distance of `rdsum` from the exact sum
of the elements, likewise for `rdasum` and the exact sum of absolute values, and
`dbbound(fold, N, damaxm(N, X, Y), rddot(N, X, Y))` bounds the distance of `rddot` from the exact sum of the rounded
products; whatever the strides and the tuning of each routine. Missing: as for `C17_bound_partial`. -/
theorem C17_routines_partial [F.OK] {T T' : Tune} (hT : T.OK F) (hT' : T'.OK F) {fold : Nat} (hfold : 2 ≤ fold) (hfold' : fold < 2 ^ 50)
    {n : Nat} {X Y : Int → Flt} {incX incY : Int} :
    (BoundOK F fold (gather X incX n) → F.Finite (F.rdsum T fold n X incX) →
      AtLeast F (bound F fold n (F.damax T' (gather X incX n)) (F.rdsum T fold n X incX))
        (F.toInt (F.rdsum T fold n X incX) - F.exactSum (gather X incX n)).natAbs) ∧
    (BoundOK F fold ((gather X incX n).map fabs) → F.Finite (F.rdasum T fold n X incX) →
      AtLeast F (bound F fold n (F.damax T' (gather X incX n)) (F.rdasum T fold n X incX))
        (F.toInt (F.rdasum T fold n X incX) - F.exactSum ((gather X incX n).map fabs)).natAbs) ∧
    (BoundOK F fold (products F n X incX Y incY) → F.Finite (F.rddot T fold n X incX Y incY) →
      AtLeast F (bound F fold n (F.damaxm T' (gather X incX n) (gather Y incY n)) (F.rddot T fold n X incX Y incY))
        (F.toInt (F.rddot T fold n X incX Y incY) - F.exactSum (products F n X incX Y incY)).natAbs) := by
  have h31 : 2 ^ 31 ≤ F.capacity := by rcases ‹F.OK›.isDoubleOrFloat with h | h <;> rw [h] <;> decide
  refine ⟨?_, ?_, ?_⟩
  · rintro ⟨h1, h2, h3, h4, h5⟩ hf
    have hl : (gather X incX n).length = n := gather_length ..
    have hw := ((C36_wrappers (Y := Y) (incY := incY) hT hfold (n := n) (by omega)).1 (fun i hi =>
      h2 _ (List.mem_map.2 ⟨i, List.mem_range.2 hi, rfl⟩))).1
    have := bound_list hT' hfold hfold' h1 h2 h3 h4 hw hf h5
    rwa [hl] at this
  · rintro ⟨h1, h2, h3, h4, h5⟩ hf
    have hl : ((gather X incX n).map fabs).length = n := by rw [List.length_map]; exact gather_length ..
    have hw := ((C36_wrappers (X := X) (incX := incX) (Y := Y) (incY := incY) hT hfold (n := n) (by omega)).1 (fun i hi =>
      h2 (fabs (X (i * incX))) (List.mem_map.2 ⟨_, List.mem_map.2 ⟨i, List.mem_range.2 hi, rfl⟩, rfl⟩))).2
    have := bound_list hT' hfold hfold' h1 h2 h3 h4 hw hf h5
    have e : F.damax T' ((gather X incX n).map fabs) = F.damax T' (gather X incX n) := by
      unfold damax
      rw [List.map_map]
      rfl
    rwa [hl, e] at this
  · rintro ⟨h1, h2, h3, h4, h5⟩ hf
    have hl : (products F n X incX Y incY).length = n := by unfold products; simp
    have hw := (C36_wrappers (X := X) (incX := incX) (Y := Y) (incY := incY) hT hfold (n := n) (by omega)).2 (fun i hi =>
      h2 _ (List.mem_map.2 ⟨i, List.mem_range.2 hi, rfl⟩))
    have := bound_list hT' hfold hfold' h1 h2 h3 h4 hw hf h5
    have e : F.damaxm T' (gather X incX n) (gather Y incY n) = F.damax T' (products F n X incX Y incY) := by
      unfold damaxm damax
      rw [zip_gather]
      rfl
    rw [e]
    rwa [hl] at this

/-- The hypotheses are met by a vector whose sum cancels and loses bits, read with stride 2, and by a dot product. -/
example : (let X : Int → Flt := fun i => nth [f64.pow2 60, zero, f64.pow2 (-30), zero, fneg (f64.pow2 60), zero, f64.pow2 (-100)] i.toNat
    BoundOK f64 3 (gather X 2 4) ∧ f64.Finite (f64.rdsum exAVX 3 4 X 2) ∧ f64.toInt (f64.rdsum exAVX 3 4 X 2) ≠ f64.exactSum (gather X 2 4) ∧
    BoundOK f64 3 (products f64 4 X 2 X 1) ∧ f64.Finite (f64.rddot exAVX 3 4 X 2 X 1)) := by
  unfold BoundOK
  refine ⟨⟨by decide +kernel, by decide +kernel, by decide +kernel, by decide +kernel, Or.inl (by decide +kernel)⟩, by decide +kernel,
    by decide +kernel, ⟨by decide +kernel, by decide +kernel, by decide +kernel, by decide +kernel, Or.inl (by decide +kernel)⟩, by decide +kernel⟩

end Repro
