import Verif.SsqNear
/-!
# The state of a scaled sum of squares, and what rescaling does to it
-/

namespace Repro
open Fmt

/-! ### specification -/

/-- The scale of a list: that of its largest magnitude; zero for the empty list. -/
def scaleOf (F : Fmt) (xs : List Flt) : Flt := if xs = [] then zero else F.dscale ⟨false, maxMag xs⟩

/-- **The specification of a scaled sum of squares**: the scale of the largest magnitude and the specified sum of the
squares at that scale. -/
def ssqSpec (F : Fmt) (fold : Nat) (xs : List Flt) : Flt × Binned :=
  (scaleOf F xs, F.specSum fold (xs.map (F.sq (scaleOf F xs))))

variable {F : Fmt}

/-! ### scales -/

theorem expo_le_finite [F.OK] {x : Flt} (hx : F.Finite x) : F.expo x ≤ F.emax := by
  unfold Finite infMag at hx
  unfold expo
  exact Nat.le_of_lt ((Nat.div_lt_iff_lt_mul (pow_pos' _)).2 hx)

theorem scale_of [F.OK] {x : Flt} (hx : F.Finite x) : ∃ n m : Nat, (n : Int) = F.eta + F.W * F.scaleZ (F.expo x) ∧ F.IsScale (F.dscale x) n m ∧
    F.val x.mag < 2 ^ (F.W + n) ∧ (F.W ≤ F.expo x → 2 ^ n < 2 ^ F.W * F.val x.mag) := by
  obtain ⟨z, n, m, h1, h2, h3, h4, h5, h6, h7, h8, h9, h10, h11⟩ := C30_scale (F := F) x (expo_le_finite hx)
  have hb := scaleZ_bounds (F := F) (expo_le_finite hx)
  have ⟨hp, hW, hWp, _, hem, hem1, hbi, het, hb3, _⟩ := F.facts
  have hz : (n : Int) = F.eta + F.W * F.scaleZ (F.expo x) := by
    have h7' := h7
    rw [dscale_eq, pow2_val' (n := (F.eta + F.W * F.scaleZ (F.expo x)).toNat) (by omega) (by omega)] at h7'
    have := Nat.pow_right_injective (Nat.le_refl 2) h7'
    omega
  have := h11 hx
  rw [← Nat.pow_add] at this
  exact ⟨n, m, hz, ⟨h6, h5, h7, h9, h8, h10, by omega, h3, h4⟩, this.1, this.2⟩

theorem lt_scale {S S' : Flt} (hn : S.neg = false) (hn' : S'.neg = false) (hf : F.Finite S) (hf' : F.Finite S') :
    F.lt S S' = decide (S.mag < S'.mag) := by
  unfold lt key
  rw [hn, hn', finite_not_nan hf, finite_not_nan hf']
  simp

/-- Two different scales differ by whole bins, and the larger one is not the least scale. -/
theorem scale_step [F.OK] {x y : Flt} (hx : F.Finite x) (hy : F.Finite y) (h : F.lt (F.dscale x) (F.dscale y) = true) :
    ∃ n m n' m' t : Nat, F.IsScale (F.dscale x) n m ∧ F.IsScale (F.dscale y) n' m' ∧ n' = n + F.W * t ∧ m = m' + F.W * t ∧ 1 ≤ t ∧
      x.mag < y.mag ∧ F.val x.mag < 2 ^ (F.W + n) ∧ F.val y.mag < 2 ^ (F.W + n') ∧ 2 ^ n' < 2 ^ F.W * F.val y.mag := by
  obtain ⟨n, m, z1, s1, v1, w1⟩ := scale_of hx
  obtain ⟨n', m', z2, s2, v2, w2⟩ := scale_of hy
  have ⟨hp, hW, hWp, _, hem, hem1, hbi, het, hb3, _⟩ := F.facts
  rw [lt_scale s1.neg s2.neg s1.fin s2.fin] at h
  have h1 : (F.dscale x).mag < (F.dscale y).mag := by simpa using h
  have h2 := val_strict (F := F) h1
  rw [s1.val, s2.val] at h2
  have hnn : n < n' := (Nat.pow_lt_pow_iff_right (a := 2) (by omega)).1 h2
  have hlt : x.mag < y.mag := by
    by_contra hc
    have := (C30_monotone (F := F) (x := y) (y := x) (by omega) (expo_le_finite hx)).2.1
    rw [s1.val, s2.val] at this
    omega
  have hzz : F.scaleZ (F.expo x) < F.scaleZ (F.expo y) := by
    by_contra hc
    have := Int.mul_le_mul_of_nonneg_left (show F.scaleZ (F.expo y) ≤ F.scaleZ (F.expo x) by omega) (show (0:Int) ≤ F.W by omega)
    omega
  have hWy : F.W ≤ F.expo y := by
    by_contra hc
    have e : F.scaleZ (F.expo y) = F.scaleZ 0 := by
      unfold scaleZ; rw [if_pos (by omega), if_pos (by omega)]
    have := scaleZ_mono (F := F) (Nat.zero_le (F.expo x))
    omega
  obtain ⟨t, ht⟩ := Int.eq_ofNat_of_zero_le (show 0 ≤ F.scaleZ (F.expo y) - F.scaleZ (F.expo x) by omega)
  have e : (n' : Int) - n = ((F.W * t : Nat) : Int) := by
    push_cast
    rw [← ht]
    have : (F.W : Int) * (F.scaleZ (F.expo y) - F.scaleZ (F.expo x)) = F.W * F.scaleZ (F.expo y) - F.W * F.scaleZ (F.expo x) := by ring
    omega
  have a1 := s1.nm
  have a2 := s2.nm
  exact ⟨n, m, n', m', t, s1, s2, by omega, by omega, by omega, hlt, v1, v2, w2 hWy⟩

theorem maxMag_append (xs ys : List Flt) : maxMag (xs ++ ys) = max (maxMag xs) (maxMag ys) := by
  induction xs with
  | nil => simp [maxMag]
  | cons x xs ih => unfold maxMag at *; rw [List.cons_append, List.foldr_cons, List.foldr_cons, ih]; omega

theorem maxMag_perm {xs ys : List Flt} (h : xs.Perm ys) : maxMag xs = maxMag ys := by
  apply Nat.le_antisymm
  · exact maxMag_le (fun x hx => le_maxMag (h.mem_iff.1 hx))
  · exact maxMag_le (fun x hx => le_maxMag (h.mem_iff.2 hx))

theorem maxMag_finite [F.OK] {xs : List Flt} (hne : xs ≠ []) (hf : ∀ x ∈ xs, F.Finite x) : F.Finite ⟨false, maxMag xs⟩ := by
  obtain ⟨x, hx, he⟩ := maxMag_mem hne
  show maxMag xs < _
  rw [← he]; exact hf x hx

theorem scaleOf_ne {xs : List Flt} (h : xs ≠ []) : scaleOf F xs = F.dscale ⟨false, maxMag xs⟩ := if_neg h

/-- The scale of an appended list. -/
theorem scaleOf_append [F.OK] {xs ys : List Flt} (hx : xs ≠ []) (hy : ys ≠ []) (fx : ∀ x ∈ xs, F.Finite x) (fy : ∀ y ∈ ys, F.Finite y) :
    scaleOf F (xs ++ ys) = if F.lt (scaleOf F xs) (scaleOf F ys) then scaleOf F ys else scaleOf F xs := by
  rw [scaleOf_ne hx, scaleOf_ne hy, scaleOf_ne (by simp [hx])]
  have hX := maxMag_finite hx fx
  have hY := maxMag_finite hy fy
  obtain ⟨n, m, z1, s1, v1, w1⟩ := scale_of hX
  obtain ⟨n', m', z2, s2, v2, w2⟩ := scale_of hY
  have key : (F.dscale ⟨false, maxMag xs⟩).mag = (F.dscale ⟨false, maxMag ys⟩).mag → F.dscale ⟨false, maxMag xs⟩ = F.dscale ⟨false, maxMag ys⟩ := by
    intro h
    have a := s1.neg; have b := s2.neg
    generalize F.dscale ⟨false, maxMag xs⟩ = a1 at *
    generalize F.dscale ⟨false, maxMag ys⟩ = a2 at *
    cases a1; cases a2
    simp only at *
    rw [a, b, h]
  rw [lt_scale s1.neg s2.neg s1.fin s2.fin, maxMag_append]
  by_cases hle : maxMag xs ≤ maxMag ys
  · have h1 := (C30_monotone (F := F) (x := ⟨false, maxMag xs⟩) (y := ⟨false, maxMag ys⟩) hle (expo_le_finite hY)).2.2
    rw [lt_scale s2.neg s1.neg s2.fin s1.fin] at h1
    simp only [decide_eq_false_iff_not] at h1
    rw [Nat.max_eq_right hle]
    split
    · rfl
    · next h2 => exact (key (by simp at h2; omega)).symm
  · have h1 := (C30_monotone (F := F) (x := ⟨false, maxMag ys⟩) (y := ⟨false, maxMag xs⟩) (show maxMag ys ≤ maxMag xs by omega) (expo_le_finite hX)).2.2
    rw [lt_scale s1.neg s2.neg s1.fin s2.fin] at h1
    rw [Nat.max_eq_left (by omega), h1]
    simp

/-! ### squares -/

/-- The square does not look at the sign. -/
theorem sq_mag [F.OK] {S x y : Flt} {n m : Nat} (hS : F.IsScale S n m) (hx : F.Finite x) (h : x.mag = y.mag) : F.sq S x = F.sq S y := by
  have hy : F.Finite y := by show y.mag < _; rw [← h]; exact hx
  have e : ∀ a b : Flt, a.mag = b.mag → F.mul a a = F.mul b b := by
    intro a b hab
    unfold mul isNaN isInf
    rw [hab]
    simp
  unfold Fmt.sq
  dsimp only
  apply e
  rw [mul_fin hx hS.ifin, mul_fin hy hS.ifin, h]

/-- Index of the square of a number divided by a scale. -/
theorem sq_lo [F.OK] {S x : Flt} {n m : Nat} (hS : F.IsScale S n m) (hx : F.Finite x) (hb : F.val x.mag < 2 ^ (F.W + n)) :
    F.ssqLo ≤ F.dindex (F.sq S x) := by
  have ⟨s1, s2, s3, s4, s5, s6, s7, s8⟩ := F.ssq_facts
  obtain ⟨h1, -, -, -, h2⟩ := sq_val hS hx hb
  by_contra hc
  have hJ : F.ssqLo ≤ F.ssqJ := by unfold ssqJ; omega
  have h3 := Nat.le_trans (dindex_lower (F := F) h1 (by omega)) h2
  have h4 := (Nat.pow_le_pow_iff_right (a := 2) (by omega)).1 h3
  have h5 : F.W * (F.dindex (F.sq S x) + 1) ≤ F.W * F.ssqLo := Nat.mul_le_mul_left _ (by omega)
  omega

theorem sq_hi [F.OK] {S x : Flt} {n m : Nat} (hS : F.IsScale S n m) (hx : F.Finite x) (hb : F.val x.mag < 2 ^ (F.W + n))
    (hl : 2 ^ n < 2 ^ F.W * F.val x.mag) : F.dindex (F.sq S x) ≤ F.ssqHi := by
  have ⟨s1, s2, s3, s4, s5, s6, s7, s8⟩ := F.ssq_facts
  have ⟨hp, hW, hWp, _, hem, hem1, hbi, het, hb3, _⟩ := F.facts
  obtain ⟨h1, -⟩ := sq_val hS hx hb
  have h2 := sq_ge hS hx hb hl
  by_contra hc
  have h3 := Nat.lt_of_le_of_lt h2 (dindex_upper (F := F) h1)
  have h4 := (Nat.pow_lt_pow_iff_right (a := 2) (by omega)).1 h3
  have h5 : F.W * (F.ssqHi + 1) ≤ F.W * F.dindex (F.sq S x) := Nat.mul_le_mul_left _ (by omega)
  omega

/-- Index of a square at two scales. -/
theorem sq_idx [F.OK] {S S' x : Flt} {n m n' m' t : Nat} (hS : F.IsScale S n m) (hS' : F.IsScale S' n' m') (ht : m = m' + F.W * t)
    (hx : F.Finite x) (hb : F.val x.mag < 2 ^ (F.W + n)) (hb' : F.val x.mag < 2 ^ (F.W + n')) (hlt : F.dindex (F.sq S x) + 2 * t < F.ssqHi) :
    F.dindex (F.sq S' x) ≤ F.dindex (F.sq S x) + 2 * t := by
  have ⟨s1, s2, s3, s4, s5, s6, s7, s8⟩ := F.ssq_facts
  have ⟨hp, hW, hWp, hpW, hem, hem1, hbi, het, hb3, _⟩ := F.facts
  obtain ⟨f1, -⟩ := sq_val hS hx hb
  obtain ⟨f2, -⟩ := sq_val hS' hx hb'
  have hlo := dindex_lower (F := F) f1 (by omega)
  have hup := dindex_upper (F := F) f2
  have e1 : 2 * F.W * t = F.W * (2 * t) := by ring
  have e2 : F.W * (F.dindex (F.sq S x) + 2 * t + 1) = F.W * (F.dindex (F.sq S x) + 1) + F.W * (2 * t) := by ring
  have e3 : F.W * (F.dindex (F.sq S x) + 2 * t + 1) ≤ F.W * F.ssqHi := Nat.mul_le_mul_left _ (by omega)
  rcases sq_compare hS hS' ht hx hb with h | ⟨h, -⟩
  · by_contra hc
    have e4 : F.W * (F.dindex (F.sq S x) + 2 * t + 1) ≤ F.W * F.dindex (F.sq S' x) := Nat.mul_le_mul_left _ (by omega)
    rw [h] at hlo
    have h2 : 2 ^ (F.eta + F.maxExp - F.W * (F.dindex (F.sq S x) + 1)) < 2 ^ (F.eta + F.maxExp - F.W * F.dindex (F.sq S' x)) * 2 ^ (2 * F.W * t) :=
      Nat.lt_of_le_of_lt hlo (Nat.mul_lt_mul_of_pos_right hup (pow_pos' _))
    rw [← Nat.pow_add] at h2
    have h3 := (Nat.pow_lt_pow_iff_right (a := 2) (by omega)).1 h2
    have h6 := dindex_le_max (F := F) (F.sq S' x)
    have ⟨b1, _⟩ := F.bfacts
    have h7 : F.W * F.dindex (F.sq S' x) ≤ F.W * F.maxIndex := Nat.mul_le_mul_left _ h6
    omega
  · have h3 := (Nat.pow_le_pow_iff_right (a := 2) (by omega)).1 (Nat.le_trans hlo h)
    omega

theorem total_sq [F.OK] {S S' : Flt} {n m n' m' t : Nat} (hS : F.IsScale S n m) (hS' : F.IsScale S' n' m') (ht : m = m' + F.W * t)
    {j : Nat} (hj : j ≤ F.ssqJ) : ∀ {xs : List Flt}, (∀ x ∈ xs, F.Finite x ∧ F.val x.mag < 2 ^ (F.W + n)) →
    F.total (xs.map (F.sq S')) j = if j < 2 * t then 0 else F.total (xs.map (F.sq S)) (j - 2 * t) := by
  intro xs
  induction xs with
  | nil => intro _; simp [total_nil]
  | cons x xs ih =>
    intro h
    have hx := h x List.mem_cons_self
    rw [List.map_cons, List.map_cons, total_cons, total_cons, ih (fun y hy => h y (List.mem_cons_of_mem _ hy)),
      sq_slice hS hS' ht hx.1 hx.2 hj]
    split <;> simp

/-- The smallest index of the squares is that of the largest magnitude. -/
theorem minIndex_sq [F.OK] {S : Flt} {n m : Nat} (hS : F.IsScale S n m) {xs : List Flt} (hne : xs ≠ []) (hf : ∀ x ∈ xs, F.Finite x)
    (hb : F.val (maxMag xs) < 2 ^ (F.W + n)) : F.minIndex (xs.map (F.sq S)) = F.dindex (F.sq S ⟨false, maxMag xs⟩) := by
  have hM := maxMag_finite hne hf
  apply Nat.le_antisymm
  · obtain ⟨x, hx, he⟩ := maxMag_mem hne
    rw [← sq_mag hS (hf x hx) (y := ⟨false, maxMag xs⟩) he]
    exact minIndex_le_mem (List.mem_map_of_mem hx)
  · have : ∀ l : List Flt, (∀ y ∈ l, y ∈ xs) → F.dindex (F.sq S ⟨false, maxMag xs⟩) ≤ F.minIndex (l.map (F.sq S)) := by
      intro l
      induction l with
      | nil => intro _; exact dindex_le_max _
      | cons y l ih =>
        intro hl
        have h1 := ih (fun z hz => hl z (List.mem_cons_of_mem _ hz))
        have hy := hl y List.mem_cons_self
        have hyf := hf y hy
        have hym : y.mag ≤ maxMag xs := le_maxMag hy
        have hyb : F.val y.mag < 2 ^ (F.W + n) := Nat.lt_of_le_of_lt (val_mono hym) hb
        have h2 := sq_mono hS hyf hM hb hym
        have h3 := dindex_bound (F := F) (sq_val hS hyf hyb).1 h2
        rw [List.map_cons, minIndex_cons]; omega
    exact this xs (fun y hy => hy)

end Repro
