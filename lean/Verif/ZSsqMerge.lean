import Verif.ZSsqState
/-!
# Merging and extending sums of squares whose scale is that of a bound of the magnitudes
-/

namespace Repro
open Fmt
variable {F : Fmt}

/-- The sum of the squares of `ps` at the scale of `μ`. -/
def ssqM (F : Fmt) (fold μ : Nat) (ps : List Flt) : Flt × Binned :=
  (F.dscale (top μ), F.canon fold (F.dindex (F.sq (F.dscale (top μ)) (top μ))) (F.total (ps.map (F.sq (F.dscale (top μ))))))

theorem sq_le_facts [F.OK] {S : Flt} {n m μ : Nat} (hS : F.IsScale S n m) (hf : F.Finite (top μ)) (hb : F.val μ < 2 ^ (F.W + n))
    {ps : List Flt} (hle : ∀ x ∈ ps, x.mag ≤ μ) : ∀ v ∈ ps.map (F.sq S), F.Finite v ∧ F.dindex (F.sq S (top μ)) ≤ F.dindex v := by
  intro v hv
  obtain ⟨x, hx, rfl⟩ := List.mem_map.1 hv
  have hxf := fin_of_le hf (hle x hx)
  have hvx := sq_val hS hxf (Nat.lt_of_le_of_lt (val_mono (hle x hx)) hb)
  exact ⟨hvx.1, dindex_bound (F := F) hvx.1 (sq_mono hS hxf hf hb (hle x hx))⟩

theorem SsqM.of [F.OK] {fold μ : Nat} {ps : List Flt} (hf : F.Finite (top μ)) (hle : ∀ x ∈ ps, x.mag ≤ μ) :
    SsqM F fold 0 ps μ (ssqM F fold μ ps).2 := by
  obtain ⟨n, m, z, i1, v1, w1⟩ := scale_of hf
  have hpf := sq_le_facts i1 hf v1 hle
  refine ⟨hf, hle, mid_canon (dindex_le_max _) (fun j hj => total_zeros hpf hj) ?_⟩
  intro j
  have := total_natAbs (fun v hv => (hpf v hv).1) j
  rwa [List.length_map] at this

theorem SsqM.renorm [F.OK] {fold d μ : Nat} {ps : List Flt} {y : Binned} (h : SsqM F fold d ps μ y) (hfold : 1 ≤ fold) (hd : d ≤ F.endurance)
    (hN : ps.length ≤ F.capacity) : F.dmrenorm y = (ssqM F fold μ ps).2 := h.mid.renorm hfold hd hN

/-- The scale of the larger of two magnitudes is the larger of the scales. -/
theorem dscale_max [F.OK] {μ ν : Nat} (hμ : F.Finite (top μ)) (hν : F.Finite (top ν)) :
    F.dscale (top (max μ ν)) = if F.lt (F.dscale (top μ)) (F.dscale (top ν)) then F.dscale (top ν) else F.dscale (top μ) := by
  have h := scaleOf_append (F := F) (xs := [top μ]) (ys := [top ν]) (by simp) (by simp) (by simpa using hμ) (by simpa using hν)
  rw [scaleOf_ne (by simp), scaleOf_ne (by simp), scaleOf_ne (by simp)] at h
  have e1 : maxMag [top μ] = μ := by simp [maxMag, top]
  have e2 : maxMag [top ν] = ν := by simp [maxMag, top]
  rw [maxMag_append, e1, e2] at h
  exact h

theorem top_max {μ ν : Nat} (hμ : F.Finite (top μ)) (hν : F.Finite (top ν)) : F.Finite (top (max μ ν)) := by
  unfold Finite at *
  have a : μ < F.infMag := hμ
  have b : ν < F.infMag := hν
  show max μ ν < _
  omega

theorem scale_pos [F.OK] {μ : Nat} (hμ : F.Finite (top μ)) : F.lt zero (F.dscale (top μ)) = true := by
  obtain ⟨n, m, z, i1, v1, w1⟩ := scale_of hμ
  rw [lt_scale rfl i1.neg zero_finite i1.fin]
  have := mag_ne_of_val i1.val
  simp only [decide_eq_true_eq]
  show 0 < _; omega

theorem scale_ge [F.OK] {μ ν n m : Nat} (hμ : F.Finite (top μ)) (hν : F.Finite (top ν)) (i : F.IsScale (F.dscale (top μ)) n m)
    (h : F.lt (F.dscale (top μ)) (F.dscale (top ν)) = false) : F.val ν < 2 ^ (F.W + n) := by
  obtain ⟨n', m', z', i2, v2, w2⟩ := scale_of hν
  rw [lt_scale i.neg i2.neg i.fin i2.fin] at h
  simp only [decide_eq_false_iff_not] at h
  have h1 := val_mono (F := F) (show (F.dscale (top ν)).mag ≤ (F.dscale (top μ)).mag by omega)
  rw [i.val, i2.val] at h1
  refine Nat.lt_of_lt_of_le v2 ?_
  rw [Nat.pow_add, Nat.pow_add]
  exact Nat.mul_le_mul_left _ h1

theorem dindex_sq_max [F.OK] {S : Flt} {n m μ ν : Nat} (hS : F.IsScale S n m) (hμ : F.Finite (top μ)) (hν : F.Finite (top ν))
    (vμ : F.val μ < 2 ^ (F.W + n)) (vν : F.val ν < 2 ^ (F.W + n)) :
    min (F.dindex (F.sq S (top μ))) (F.dindex (F.sq S (top ν))) = F.dindex (F.sq S (top (max μ ν))) := by
  rcases Nat.le_total μ ν with h | h
  · rw [Nat.max_eq_right h]
    have := dindex_bound (F := F) (sq_val hS hμ vμ).1 (sq_mono hS hμ hν vν h)
    omega
  · rw [Nat.max_eq_left h]
    have := dindex_bound (F := F) (sq_val hS hν vν).1 (sq_mono hS hν hμ vμ h)
    omega

theorem scale_eq_of_not_lt [F.OK] {μ ν : Nat} (hμ : F.Finite (top μ)) (hν : F.Finite (top ν))
    (h1 : F.lt (F.dscale (top μ)) (F.dscale (top ν)) = false) (h2 : F.lt (F.dscale (top ν)) (F.dscale (top μ)) = false) :
    F.dscale (top μ) = F.dscale (top ν) := by
  obtain ⟨n, m, z, i1, v1, w1⟩ := scale_of hμ
  obtain ⟨n', m', z', i2, v2, w2⟩ := scale_of hν
  rw [lt_scale i1.neg i2.neg i1.fin i2.fin] at h1
  rw [lt_scale i2.neg i1.neg i2.fin i1.fin] at h2
  simp only [decide_eq_false_iff_not] at h1 h2
  have a := i1.neg; have b := i2.neg
  generalize F.dscale (top μ) = a1 at *
  generalize F.dscale (top ν) = a2 at *
  cases a1; cases a2
  simp only at *
  rw [a, b]; congr 1; omega

/-- Merging. -/
theorem ssqM_merge [F.OK] {fold : Nat} (hfold : 2 ≤ fold) (hJ : F.ssqHi + fold ≤ F.ssqJ + 1) {xs ys : List Flt} {μ ν : Nat}
    (hμ : F.Finite (top μ)) (hν : F.Finite (top ν)) (hx : ∀ x ∈ xs, x.mag ≤ μ) (hy : ∀ y ∈ ys, y.mag ≤ ν) (hN : xs.length + ys.length ≤ F.capacity) :
    F.dmdmaddsq fold (ssqM F fold μ xs).1 (ssqM F fold μ xs).2 (ssqM F fold ν ys).1 (ssqM F fold ν ys).2 = ssqM F fold (max μ ν) (xs ++ ys) := by
  have sx := SsqM.of (F := F) (fold := fold) hμ hx
  have sy := SsqM.of (F := F) (fold := fold) hν hy
  obtain ⟨n, m, z, i1, v1, w1⟩ := scale_of hμ
  obtain ⟨n', m', z', i2, v2, w2⟩ := scale_of hν
  have happ := dscale_max hμ hν
  have happ' := dscale_max hν hμ
  rw [Nat.max_comm] at happ'
  have ex : (ssqM F fold μ xs).1 = F.dscale (top μ) := rfl
  have ey : (ssqM F fold ν ys).1 = F.dscale (top ν) := rfl
  rw [ex, ey]
  unfold dmdmaddsq
  by_cases hlt : F.lt (F.dscale (top ν)) (F.dscale (top μ)) = true
  · rw [if_pos hlt] at happ'
    rw [hlt]
    simp only [if_true]
    obtain ⟨y0, k0, A0, n1, m1, j1, j2, j3, j4, j5, j6, j7, j9⟩ := sy.rescale (by omega) hJ (by omega) hμ hlt
    have hix := sx.mid.index (by omega) (by omega)
    have hmy := j5.index (by omega) (by omega)
    rw [j4.madd_right (by rw [hix]; exact j7) (sx.mid.not_zero (by omega) (by omega)) (sx.mid.finite (by omega) (by omega)) (by omega)
      (by rw [hix, hmy]; exact j6), (sx.mid.merge hfold j5 hN).1, Nat.min_eq_left j6]
    unfold ssqM
    rw [happ', Nat.max_eq_left (Nat.le_of_lt j3)]
    congr 1
    apply canon_congr
    intro j _ hj
    rw [List.map_append, total_append, j9 j (by omega)]
  · have hlt' : F.lt (F.dscale (top ν)) (F.dscale (top μ)) = false := by simpa using hlt
    rw [hlt']
    simp only [Bool.false_eq_true, if_false]
    by_cases hg : F.lt (F.dscale (top μ)) (F.dscale (top ν)) = true
    · have heq : F.feq (F.dscale (top μ)) (F.dscale (top ν)) = false := by
        unfold feq key
        rw [lt_scale i1.neg i2.neg i1.fin i2.fin] at hg
        rw [i1.neg, i2.neg, finite_not_nan i1.fin, finite_not_nan i2.fin]
        simp at hg ⊢
        omega
      rw [if_pos hg] at happ
      rw [heq]
      simp only [Bool.false_eq_true, if_false]
      obtain ⟨y0, k0, A0, n1, m1, j1, j2, j3, j4, j5, j6, j7, j9⟩ := sx.rescale (by omega) hJ (by omega) hν hg
      have hix := sy.mid.index (by omega) (by omega)
      have hmy := j5.index (by omega) (by omega)
      rw [j4.madd_left (by rw [hix]; exact j7) (sy.mid.not_zero (by omega) (by omega)) (sy.mid.finite (by omega) (by omega)) (by omega)
        (by rw [hix, hmy]; exact j6), (j5.merge hfold sy.mid hN).1, Nat.min_eq_right j6]
      unfold ssqM
      rw [happ, Nat.max_eq_right (Nat.le_of_lt j3)]
      congr 1
      apply canon_congr
      intro j _ hj
      rw [List.map_append, total_append, j9 j (by omega)]
    · have hg' : F.lt (F.dscale (top μ)) (F.dscale (top ν)) = false := by simpa using hg
      have hS := scale_eq_of_not_lt hμ hν hg' hlt'
      have heq : F.feq (F.dscale (top μ)) (F.dscale (top ν)) = true := by
        rw [hS]; unfold feq; rw [finite_not_nan i2.fin]; simp
      rw [heq]
      simp only [if_true]
      rw [if_neg hg] at happ
      have vν := scale_ge hμ hν i1 hg'
      rw [(sx.mid.merge hfold sy.mid hN).1]
      unfold ssqM
      rw [happ]
      rw [← hS, dindex_sq_max i1 hμ hν v1 vν]
      congr 1
      apply canon_congr
      intro j _ _
      rw [List.map_append, total_append]

/-- Merging into a fresh value. -/
theorem ssqM_merge_zero [F.OK] {fold : Nat} (hfold : 2 ≤ fold) {xs : List Flt} {μ : Nat}
    (hμ : F.Finite (top μ)) (hx : ∀ x ∈ xs, x.mag ≤ μ) :
    F.dmdmaddsq fold (ssqM F fold μ xs).1 (ssqM F fold μ xs).2 zero (dmsetzero fold) = ssqM F fold μ xs := by
  have sx := SsqM.of (F := F) (fold := fold) hμ hx
  have e : (ssqM F fold μ xs).1 = F.dscale (top μ) := rfl
  have rz : ∀ (S : Flt) (y : Binned), F.dmdrescale S zero y = y := by
    intro S y; unfold dmdrescale
    have : isZero zero = true := rfl
    rw [this]; simp
  unfold dmdmaddsq
  rw [e, scale_pos hμ, rz, merge_zero_right _ (sx.mid.not_zero (by omega) (by omega))]
  rfl

/-- The specification is the sum at the scale of the largest magnitude. -/
theorem ssqSpec_eq_M [F.OK] {fold : Nat} {xs : List Flt} (hne : xs ≠ []) (hf : ∀ x ∈ xs, F.Finite x) :
    ssqSpec F fold xs = ssqM F fold (maxMag xs) xs := by
  have hM := maxMag_finite hne hf
  obtain ⟨n, m, z, i1, v1, w1⟩ := scale_of hM
  unfold ssqSpec ssqM specSum
  rw [if_neg (by simpa using hne), scaleOf_ne hne, minIndex_sq i1 hne hf v1]

end Repro
