import Verif.PropsNorm

/-!
# C56: the 2-norm of every finite vector, including tiny ones

The largest element may be subnormal. The scale is then the least one, the squares do not underflow, and only the last
rounding is coarser: the norm is within half a unit of `2^-eta` (the least subnormal) of a number that is as accurate as in
`C56_norm`.
-/

namespace Repro
open Fmt

variable {F : Fmt}

theorem sq_zero_toInt [F.OK] {S x : Flt} {n m : Nat} (hS : F.IsScale S n m) (hx : F.Finite x) (h0 : F.val x.mag = 0) : F.toInt (F.sq S x) = 0 := by
  have hx0 : x.mag = 0 := (val_eq_zero (F := F)).1 h0
  have e : F.sq S x = F.sq S zero := sq_mag hS hx (y := zero) hx0
  have h := (val_eq_zero (F := F)).2 (sq_zero_mag hS)
  rw [e, ← Int.natAbs_eq_zero, toInt_natAbs, h]

/-- The same for tiny numbers: the largest is not zero and below `2^(p+1)` units. The scale is the least one, the squares do not underflow. -/
theorem ssq_core_small [F.OK] {fold : Nat} (hfold : 2 ≤ fold) (hJ : F.ssqHi + fold ≤ F.ssqJ) {xs : List Flt} (hf : ∀ x ∈ xs, F.Finite x)
    (hN : xs.length ≤ F.capacity) (hpos : 1 ≤ F.val (maxMag xs)) (hsm : F.val (maxMag xs) < 2 ^ (F.p + 1)) :
    ∃ n m, F.IsScale (ssqSpec F fold xs).1 n m ∧ 2 * n + F.p ≤ F.eta ∧
      F.Finite (convert F fold (ssqSpec F fold xs).2) ∧ (convert F fold (ssqSpec F fold xs).2).neg = false ∧
      |(2 ^ (3 * F.eta) / 2 ^ (2 * m) : Rat) * F.val (convert F fold (ssqSpec F fold xs).2).mag - sumSq F xs| ≤
        (12 * (1 / 2 ^ F.p) + 3 / 2 * (xs.length / 2 ^ (F.W * (fold - 1)))) * (sumSq F xs : Rat) ∧
      (F.val (maxMag xs) : Rat) ^ 2 / 2 ≤ 2 ^ (3 * F.eta) / 2 ^ (2 * m) * (F.val (convert F fold (ssqSpec F fold xs).2).mag : Rat) := by
  have ⟨hp, hW, hWp, hpW, he, he1, hbi, het, hb3, hb4⟩ := F.facts
  have hne : xs ≠ [] := by
    rintro rfl
    have h0 : F.val (maxMag []) = 0 := (val_eq_zero (F := F)).2 rfl
    omega
  have hMf := maxMag_finite hne hf
  obtain ⟨n, m, hz, hS, hvn, hw⟩ := scale_of hMf
  have e1 : (ssqSpec F fold xs).1 = F.dscale ⟨false, maxMag xs⟩ := by
    unfold ssqSpec scaleOf; dsimp only; rw [if_neg hne]
  have hlow : F.expo ⟨false, maxMag xs⟩ < F.W := by
    have h := (val_expo (F := F) ⟨false, maxMag xs⟩).2
    by_contra hc
    have h1 := Nat.lt_of_le_of_lt (h (by omega)) hsm
    have h2 := (Nat.pow_lt_pow_iff_right (a := 2) (by omega)).1 h1
    omega
  have hn : 2 * n + F.p ≤ F.eta ∧ (F.eta = 1074 → n ≤ 114) ∧ (F.eta = 149 → n ≤ 45) := by
    have e : F.scaleZ (F.expo ⟨false, maxMag xs⟩) = F.scaleZ 0 := by
      unfold scaleZ
      rw [if_pos (by omega), if_pos (by omega)]
    rw [e] at hz
    rcases ‹F.OK›.isDoubleOrFloat with h | h
    · have a : (f64.eta : Int) + f64.W * f64.scaleZ 0 = 114 := by decide
      rw [h] at hz ⊢
      rw [a] at hz
      have : n = 114 := by omega
      subst this
      decide
    · have a : (f32.eta : Int) + f32.W * f32.scaleZ 0 = 45 := by decide
      rw [h] at hz ⊢
      rw [a] at hz
      have : n = 45 := by omega
      subst this
      decide
  obtain ⟨hn2, hn3, hn4⟩ := hn
  have hnm := hS.nm
  generalize hSd : F.dscale ⟨false, maxMag xs⟩ = S at *
  have hvx : ∀ x ∈ xs, F.val x.mag < 2 ^ (F.W + n) := fun x hx => Nat.lt_of_le_of_lt (val_mono (le_maxMag hx)) hvn
  have hbig : 2 ^ (F.p + 3 * F.eta) ≤ 2 ^ (2 * m) := Nat.pow_le_pow_right (by omega) (by omega)
  have hfold' : fold < 2 ^ 50 := by
    have : F.ssqJ < 2 ^ 50 := by rcases ‹F.OK›.isDoubleOrFloat with h | h <;> rw [h] <;> decide
    omega
  have g := ssq_core_gen (c := 0) hfold hfold' hf hN hne hS hSd hvn (fun x hx => by
      rw [add_zero]
      by_cases h0 : F.val x.mag = 0
      · rw [sq_zero_toInt hS (hf x hx) h0]
        have : F.toInt x = 0 := by rw [← Int.natAbs_eq_zero, toInt_natAbs]; exact h0
        rw [this]
        norm_num
      · refine sq_err_big hS (hf x hx) (hvx x hx) (Nat.le_trans hbig ?_)
        rw [Nat.mul_comm 2 m, Nat.pow_mul]
        exact Nat.pow_le_pow_left (Nat.le_mul_of_pos_left _ (by omega)) 2)
    (fun N _ => by rw [mul_zero]; positivity) (fun z hzm hze hzf hKVz => by
    have hm0 : (0 : Rat) < 2 ^ (2 * m) := by positivity
    have hVz : 2 ^ (F.eta - 2 * n - 1) ≤ F.val (F.sq S z).mag := by
      have h2 : 15 / 16 * (F.val (maxMag xs) : Rat) ^ 2 * 2 ^ (2 * m) ≤ 2 ^ (3 * F.eta) * (F.val (F.sq S z).mag : Rat) := by
        have := mul_le_mul_of_nonneg_right hKVz (le_of_lt hm0)
        rw [mul_right_comm (2 ^ (3 * F.eta) / 2 ^ (2 * m) : Rat), div_mul_cancel₀ _ (ne_of_gt hm0)] at this
        exact this
      have h3 : (1 : Rat) ≤ (F.val (maxMag xs) : Rat) ^ 2 := one_le_pow₀ (by exact_mod_cast hpos)
      have h4 : (2 : Rat) ^ (2 * m) / 2 ≤ 2 ^ (3 * F.eta) * (F.val (F.sq S z).mag : Rat) := by
        have := mul_le_mul_of_nonneg_right h3 (le_of_lt hm0)
        linarith
      rw [show 2 * m = 3 * F.eta + (F.eta - 2 * n - 1) + 1 by omega, pow_succ, mul_div_assoc, div_self (by norm_num), mul_one, pow_add] at h4
      have h5 := le_of_mul_le_mul_left h4 (by positivity)
      exact_mod_cast h5
    have h1 := Nat.lt_of_le_of_lt hVz (dindex_upper (F := F) hzf)
    have h2 := (Nat.pow_lt_pow_iff_right (a := 2) (by omega)).1 h1
    clear hKVz hVz h1 e1 hzf
    generalize F.dindex (F.sq S z) = d at *
    rcases ‹F.OK›.isDoubleOrFloat with h | h
    · have a1 : F.eta = 1074 := by rw [h]; rfl
      have a2 : F.W = 40 := by rw [h]; rfl
      have a3 : F.maxExp = 1024 := by rw [h]; rfl
      have a4 : F.maxIndex = 51 := by rw [h]; rfl
      have a5 : F.ssqHi = 27 := by rw [h]; decide
      have a6 : F.ssqJ = 48 := by rw [h]; decide
      have a7 := hn3 a1
      rw [a1, a2, a3] at h2
      rw [a4]
      omega
    · have a1 : F.eta = 149 := by rw [h]; rfl
      have a2 : F.W = 13 := by rw [h]; rfl
      have a3 : F.maxExp = 128 := by rw [h]; rfl
      have a4 : F.maxIndex = 20 := by rw [h]; rfl
      have a5 : F.ssqHi = 11 := by rw [h]; decide
      have a6 : F.ssqJ = 16 := by rw [h]; decide
      have a7 := hn4 a1
      rw [a1, a2, a3] at h2
      rw [a4]
      omega)
  rw [e1]
  exact ⟨n, m, hS, hn2, g⟩

/-- The last rounding, of a number that may be tiny. -/
theorem round_tiny [F.OK] {n s : Nat} (h : n < 2 ^ (F.p - 1 + s)) :
    F.roundMag n s < F.infMag ∧ 2 * (F.val (F.roundMag n s) * 2 ^ s) ≤ 2 * n + 2 ^ s ∧ 2 * n ≤ 2 * (F.val (F.roundMag n s) * 2 ^ s) + 2 ^ s := by
  have ⟨hp, hW, hWp, _, he, he1, hbi, het, _⟩ := F.facts
  have hk : F.rk n s = 0 := by
    unfold rk
    by_cases hn : n = 0
    · subst hn; simp
    · have := (Nat.log2_lt hn).2 h
      omega
  have hv := round_val (F := F) n s
  have he' := rne_err n s
  rw [hk, Nat.zero_mul, Nat.zero_add, Nat.add_zero, pow_zero, Nat.mul_one] at hv
  have hle : rne n s ≤ 2 ^ (F.p - 1) := rne_le n s _ (by rw [← Nat.pow_add]; exact Nat.le_of_lt h)
  have hinf : 2 ^ (F.p - 1) < F.infMag := by
    rcases ‹F.OK›.isDoubleOrFloat with h | h <;> rw [h] <;> decide
  have e : F.roundMag n s = rne n s := by
    have : F.roundMag n s = min (F.rk n s * 2 ^ (F.p - 1) + rne n (s + F.rk n s)) F.infMag := rfl
    rw [this, hk, Nat.zero_mul, Nat.zero_add, Nat.add_zero, Nat.min_eq_left (by omega)]
  rw [e, hv]
  exact ⟨by omega, he'.1, he'.2⟩

/-- A lower bound for the scaled root of a sum that is at least one half. -/
theorem root_ge_half {P s : Nat} {S : Rat} (h : |(P : Rat) ^ 2 / (2 ^ (s + 1)) ^ 2 - S| ≤ 1 / 2 * S) (hS : 1 / 2 ≤ S) : 2 ^ s ≤ P := by
  have h1 := (abs_le.1 h).1
  have h2 : (1 : Rat) / 4 ≤ (P : Rat) ^ 2 / (2 ^ (s + 1)) ^ 2 := by linarith
  rw [le_div_iff₀ (by positivity)] at h2
  by_contra hc
  have h3 : (P : Rat) < 2 ^ s := by exact_mod_cast Nat.lt_of_not_le hc
  have h4 : (P : Rat) ^ 2 < (2 ^ s) ^ 2 := by gcongr
  have h5 : (1 : Rat) / 4 * (2 ^ (s + 1)) ^ 2 = (2 ^ s) ^ 2 := by rw [pow_succ]; ring
  linarith

/-- The scaled sum of squares of tiny numbers is below the overflow threshold. -/
theorem scaled_lt [F.OK] {n m k : Nat} {c : Flt} (hnm : n + m = 2 * F.eta) (hn : 2 * n + F.p ≤ F.eta) (hc : F.Finite c) (hk : F.p + F.emax - 2 ≤ 2 * k) :
    2 ^ (3 * F.eta) / 2 ^ (2 * m) * (F.val c.mag : Rat) < 2 ^ (2 * k) := by
  have h1 : (2 : Rat) ^ (3 * F.eta) / 2 ^ (2 * m) ≤ 1 := by
    rw [div_le_one (by positivity)]
    exact pow_le_pow_right₀ (by norm_num) (by omega)
  have h2 : (F.val c.mag : Rat) < 2 ^ (F.p + F.emax - 2) := by exact_mod_cast val_lt (F := F) hc
  have h3 : (2 : Rat) ^ (F.p + F.emax - 2) ≤ 2 ^ (2 * k) := pow_le_pow_right₀ (by norm_num) hk
  have h4 := mul_le_mul_of_nonneg_right h1 (Nat.cast_nonneg (α := Rat) (F.val c.mag))
  linarith

/-- The last rounding, of a number with at most `p` significant digits. -/
theorem last_exact [F.OK] {P s : Nat} (hex : rndZ F.p (P : Int) = P) (hP : P < 2 ^ (F.p + F.emax - 2 + s)) :
    F.roundMag P s < F.infMag ∧ |(F.val (F.roundMag P s) : Rat) - P / 2 ^ s| ≤ 1 / 2 := by
  have hs : (0 : Rat) < 2 ^ s := by positivity
  by_cases h : P < 2 ^ (F.p - 1 + s)
  · obtain ⟨h1, h2, h3⟩ := round_tiny (F := F) h
    refine ⟨h1, ?_⟩
    have h2' : (2 : Rat) * (F.val (F.roundMag P s) * 2 ^ s) ≤ 2 * P + 2 ^ s := by exact_mod_cast h2
    have h3' : (2 : Rat) * P ≤ 2 * (F.val (F.roundMag P s) * 2 ^ s) + 2 ^ s := by exact_mod_cast h3
    have e : (F.val (F.roundMag P s) : Rat) - P / 2 ^ s = (F.val (F.roundMag P s) * 2 ^ s - P) / 2 ^ s := by field_simp
    rw [e, abs_div, abs_of_pos hs, div_le_iff₀ hs, abs_le]
    constructor <;> linarith
  · obtain ⟨R, r1, r2, r3⟩ := round_any (F := F) (n := P) (s := s) (by omega)
    rw [hex, Int.natAbs_natCast] at r1
    have hR : R < 2 ^ (F.p + F.emax - 2) := by
      rw [← r1, Nat.pow_add] at hP
      exact Nat.lt_of_mul_lt_mul_right hP
    obtain ⟨a, b⟩ := r2 hR
    refine ⟨a, ?_⟩
    have e : (P : Rat) / 2 ^ s = R := by
      rw [← r1]; push_cast
      rw [mul_div_assoc, div_self (ne_of_gt hs), mul_one]
    rw [b, e, sub_self, abs_zero]
    norm_num

/-- The last rounding of any number. -/
theorem last_any [F.OK] {D s : Nat} (hu : (1 : Rat) / 2 ^ F.p ≤ 1 / 256) (hD : D < 2 ^ (F.p + F.emax - 3 + s)) :
    F.roundMag D s < F.infMag ∧ ∃ R : Rat, 0 ≤ R ∧ |R ^ 2 - (D : Rat) ^ 2 / (2 ^ s) ^ 2| ≤ 9 / 4 * (1 / 2 ^ F.p) * ((D : Rat) ^ 2 / (2 ^ s) ^ 2) ∧
      |(F.val (F.roundMag D s) : Rat) - R| ≤ 1 / 2 := by
  have hs : (0 : Rat) < 2 ^ s := by positivity
  have hu0 : (0 : Rat) ≤ 1 / 2 ^ F.p := by positivity
  by_cases h : D < 2 ^ (F.p - 1 + s)
  · obtain ⟨h1, h2, h3⟩ := round_tiny (F := F) h
    refine ⟨h1, (D : Rat) / 2 ^ s, by positivity, ?_, ?_⟩
    · rw [_root_.div_pow, sub_self, abs_zero]; positivity
    have h2' : (2 : Rat) * (F.val (F.roundMag D s) * 2 ^ s) ≤ 2 * D + 2 ^ s := by exact_mod_cast h2
    have h3' : (2 : Rat) * D ≤ 2 * (F.val (F.roundMag D s) * 2 ^ s) + 2 ^ s := by exact_mod_cast h3
    have e : (F.val (F.roundMag D s) : Rat) - D / 2 ^ s = (F.val (F.roundMag D s) * 2 ^ s - D) / 2 ^ s := by field_simp
    rw [e, abs_div, abs_of_pos hs, div_le_iff₀ hs, abs_le]
    constructor <;> linarith
  · obtain ⟨R, r1, r2, r3⟩ := round_any (F := F) (n := D) (s := s) (by omega)
    have hrr := round_rat (F := F) D
    rw [← r1] at hrr
    have hRD : R * 2 ^ s ≤ 2 * D := by
      have h1 := (abs_le.1 hrr).2
      have h2 := mul_le_mul_of_nonneg_right hu (Nat.cast_nonneg (α := Rat) (R * 2 ^ s))
      have h3 : ((R * 2 ^ s : Nat) : Rat) ≤ ((2 * D : Nat) : Rat) := by
        rw [Nat.cast_mul 2 D, Nat.cast_ofNat]
        linarith
      exact_mod_cast h3
    have hR : R < 2 ^ (F.p + F.emax - 2) := by
      have ⟨hp, hW, hWp, hpW, he, _⟩ := F.facts
      have h1 : R * 2 ^ s < 2 ^ (F.p + F.emax - 2) * 2 ^ s := by
        rw [← Nat.pow_add, show F.p + F.emax - 2 + s = F.p + F.emax - 3 + s + 1 by omega, Nat.pow_succ]
        omega
      exact Nat.lt_of_mul_lt_mul_right h1
    obtain ⟨a, b⟩ := r2 hR
    refine ⟨a, R, Nat.cast_nonneg _, ?_, by rw [b, sub_self, abs_zero]; norm_num⟩
    have hrsq := rel_sq hu0 (by linarith) (Nat.cast_nonneg _) hrr
    have hB : (0 : Rat) < (2 ^ s) ^ 2 := by positivity
    have e1 : (R : Rat) ^ 2 = ((R * 2 ^ s : Nat) : Rat) ^ 2 / (2 ^ s) ^ 2 := sq_shift rfl
    rw [e1, ← sub_div, abs_div, abs_of_pos hB, div_le_iff₀ hB, mul_assoc (9 / 4 * (1 / 2 ^ F.p) : Rat), div_mul_cancel₀ _ (ne_of_gt hB)]
    exact hrsq

/-- The double routine on tiny numbers. -/
theorem norm64_small {fold : Nat} (hfold : 2 ≤ fold) (hJ : f64.ssqHi + fold ≤ f64.ssqJ) {xs : List Flt} (hf : ∀ x ∈ xs, f64.Finite x)
    (hN : xs.length ≤ f64.capacity) (hpos : 1 ≤ f64.val (maxMag xs)) (hsm : f64.val (maxMag xs) < 2 ^ (f64.p + 1)) :
    ∃ R : Rat, 0 ≤ R ∧ |R ^ 2 - sumSq f64 xs| ≤ (16 * (1 / 2 ^ f64.p) + 2 * (xs.length / 2 ^ (f64.W * (fold - 1)))) * (sumSq f64 xs : Rat) ∧
      (normOf f64 fold (ssqSpec f64 fold xs)).neg = false ∧ f64.Finite (normOf f64 fold (ssqSpec f64 fold xs)) ∧
      |(f64.val (normOf f64 fold (ssqSpec f64 fold xs)).mag : Rat) - R| ≤ 1 / 2 := by
  obtain ⟨n, m, hS, hn2, hcf, hcn, herr, hlow⟩ := ssq_core_small hfold hJ hf hN hpos hsm
  have hnm := hS.nm
  have ⟨hp, _⟩ := f64.facts
  unfold normOf
  rw [if_neg (by decide)]
  generalize convert f64 fold (ssqSpec f64 fold xs).2 = c at *
  generalize (ssqSpec f64 fold xs).1 = S at *
  have hM2 : (1 : Rat) / 2 ≤ (f64.val (maxMag xs) : Rat) ^ 2 / 2 := by
    have : (1 : Rat) ≤ (f64.val (maxMag xs) : Rat) ^ 2 := one_le_pow₀ (by exact_mod_cast hpos)
    linarith
  have hc0 : c.mag ≠ 0 := by
    intro h
    have h0 : f64.val c.mag = 0 := (val_eq_zero (F := f64)).2 h
    rw [h0] at hlow
    simp only [Nat.cast_zero, mul_zero] at hlow
    linarith
  obtain ⟨g1, g2, g3⟩ := sqrt_err (F := f64) (by decide) (by decide) (by decide) hcf hcn hc0
  have hu0 : (0 : Rat) ≤ 1 / 2 ^ f64.p := by positivity
  have hu : (1 : Rat) / 2 ^ f64.p ≤ 1 / 256 := by
    apply one_div_le_one_div_of_le (by norm_num)
    calc (256 : Rat) = 2 ^ 8 := by norm_num
      _ ≤ 2 ^ f64.p := pow_le_pow_right₀ (by norm_num) (by omega)
  have hroot := scaled_root (g := 0) (e' := f64.eta) (n := n) (m := m) (sv := f64.val (f64.sqrt c).mag) (vc := f64.val c.mag) hnm rfl
    (a := 5 / 2 * (1 / 2 ^ f64.p)) (by rw [pow_zero, mul_one]; exact g3)
  rw [Nat.add_zero, Nat.add_zero] at hroot
  have hS0 : (0 : Rat) ≤ 2 ^ (3 * f64.eta) / 2 ^ (2 * m) * (f64.val c.mag : Rat) := by positivity
  obtain ⟨k, hk1, hk2⟩ : ∃ k, f64.p + f64.emax - 2 ≤ 2 * k ∧ k + 1 ≤ f64.p + f64.emax - 2 := ⟨1049, by decide, by decide⟩
  have hPlt : 2 ^ n * f64.val (f64.sqrt c).mag < 2 ^ (k + 1 + f64.eta) := by
    refine root_lt (S := 2 ^ (3 * f64.eta) / 2 ^ (2 * m) * (f64.val c.mag : Rat)) ?_ (scaled_lt hnm hn2 hcf hk1)
    have := mul_le_mul_of_nonneg_right hu hS0
    linarith
  rw [mul_fin hS.fin g1, hS.neg, g2, hS.val]
  obtain ⟨mant, e, h1, h2, _⟩ := val_decomp (F := f64) (f64.sqrt c).mag
  have hex : rndZ f64.p ((2 ^ n * f64.val (f64.sqrt c).mag : Nat) : Int) = ((2 ^ n * f64.val (f64.sqrt c).mag : Nat) : Int) :=
    rndZ_exact (by omega) (m := mant) (e := n + e) (by rw [Int.natAbs_natCast, h1, Nat.pow_add]; ring) h2
  generalize 2 ^ n * f64.val (f64.sqrt c).mag = P at *
  have hk3 : k + 1 + f64.eta ≤ f64.p + f64.emax - 2 + f64.eta := Nat.add_le_add_right hk2 _
  have hP2 : P < 2 ^ (f64.p + f64.emax - 2 + f64.eta) := by
    generalize f64.p + f64.emax - 2 + f64.eta = A at *
    exact Nat.lt_of_lt_of_le hPlt (Nat.pow_le_pow_right (by omega) hk3)
  obtain ⟨l1, l2⟩ := last_exact (F := f64) (P := P) (s := f64.eta) hex hP2
  refine ⟨(P : Rat) / 2 ^ f64.eta, div_nonneg (Nat.cast_nonneg _) (pow_nonneg (by norm_num) _), ?_, rfl, l1, l2⟩
  rw [_root_.div_pow]
  have hd : (0 : Rat) ≤ xs.length / 2 ^ (f64.W * (fold - 1)) := div_nonneg (Nat.cast_nonneg _) (pow_nonneg (by norm_num) _)
  have hQ : (0 : Rat) ≤ sumSq f64 xs := by exact_mod_cast sumSq_nonneg f64 xs
  generalize (2 : Rat) ^ (3 * f64.eta) / 2 ^ (2 * m) * (f64.val c.mag : Rat) = S' at *
  generalize ((2 : Rat) ^ f64.eta) ^ 2 = B at *
  generalize (1 : Rat) / 2 ^ f64.p = u at *
  refine chain2 hu0 hu hd hQ herr (le_trans hroot ?_)
  · apply mul_le_mul_of_nonneg_right _ hS0
    linarith

/-- The float routine on tiny numbers. -/
theorem norm32_small {fold : Nat} (hfold : 2 ≤ fold) (hJ : f32.ssqHi + fold ≤ f32.ssqJ) {xs : List Flt} (hf : ∀ x ∈ xs, f32.Finite x)
    (hN : xs.length ≤ f32.capacity) (hpos : 1 ≤ f32.val (maxMag xs)) (hsm : f32.val (maxMag xs) < 2 ^ (f32.p + 1)) :
    ∃ R : Rat, 0 ≤ R ∧ |R ^ 2 - sumSq f32 xs| ≤ (16 * (1 / 2 ^ f32.p) + 2 * (xs.length / 2 ^ (f32.W * (fold - 1)))) * (sumSq f32 xs : Rat) ∧
      (normOf f32 fold (ssqSpec f32 fold xs)).neg = false ∧ f32.Finite (normOf f32 fold (ssqSpec f32 fold xs)) ∧
      |(f32.val (normOf f32 fold (ssqSpec f32 fold xs)).mag : Rat) - R| ≤ 1 / 2 := by
  obtain ⟨n, m, hS, hn2, hcf, hcn, herr, hlow⟩ := ssq_core_small hfold hJ hf hN hpos hsm
  have hnm := hS.nm
  have ⟨hp, _⟩ := f32.facts
  unfold normOf
  rw [if_pos rfl]
  generalize convert f32 fold (ssqSpec f32 fold xs).2 = c at *
  obtain ⟨g, hg, w1, w2, w3⟩ := widen_val hS.fin hS.neg
  obtain ⟨g', hg', c1, c2, c3⟩ := widen_val hcf hcn
  have : g' = g := by omega
  subst this
  rw [hS.val] at w3
  have hM2 : (1 : Rat) / 2 ≤ (f32.val (maxMag xs) : Rat) ^ 2 / 2 := by
    have : (1 : Rat) ≤ (f32.val (maxMag xs) : Rat) ^ 2 := one_le_pow₀ (by exact_mod_cast hpos)
    linarith
  have hc0 : f32.val c.mag ≠ 0 := by
    intro h0
    rw [h0] at hlow
    simp only [Nat.cast_zero, mul_zero] at hlow
    linarith
  have hc0' : (widen c).mag ≠ 0 := by
    intro h
    have h0 : f64.val (widen c).mag = 0 := (val_eq_zero (F := f64)).2 h
    rw [c3] at h0
    have := pow_pos' g'
    rcases Nat.mul_eq_zero.1 h0 with h | h <;> omega
  obtain ⟨g1, g2, g3⟩ := sqrt_err (F := f64) (by decide) (by decide) (by decide) c1 c2 hc0'
  rw [c3] at g3
  have hu0 : (0 : Rat) ≤ 1 / 2 ^ f32.p := by positivity
  have hu64 : (0 : Rat) ≤ 1 / 2 ^ f64.p := by positivity
  have hu : (1 : Rat) / 2 ^ f32.p ≤ 1 / 256 := by
    apply one_div_le_one_div_of_le (by norm_num)
    calc (256 : Rat) = 2 ^ 8 := by norm_num
      _ ≤ 2 ^ f32.p := pow_le_pow_right₀ (by norm_num) (by omega)
  have huu : (1 : Rat) / 2 ^ f64.p ≤ 1 / 1024 * (1 / 2 ^ f32.p) := by
    have e : (2 : Rat) ^ f64.p = 2 ^ 29 * 2 ^ f32.p := by
      rw [← pow_add]; rfl
    rw [e, show (1 : Rat) / (2 ^ 29 * 2 ^ f32.p) = 1 / 2 ^ 29 * (1 / 2 ^ f32.p) by field_simp]
    exact mul_le_mul_of_nonneg_right (by norm_num) hu0
  have heg : f64.eta = f32.eta + g' := by rw [hg]; rfl
  have hroot := scaled_root (g := g') (e := f32.eta) (e' := f64.eta) (n := n) (m := m) (sv := f64.val (f64.sqrt (widen c)).mag) (vc := f32.val c.mag) hnm heg
    (a := 5 / 2 * (1 / 2 ^ f64.p)) (by push_cast at g3; exact g3)
  have hS0 : (0 : Rat) ≤ 2 ^ (3 * f32.eta) / 2 ^ (2 * m) * (f32.val c.mag : Rat) := by positivity
  have hu64s : (1 : Rat) / 2 ^ f64.p ≤ 1 / 256 := by
    have : (1 : Rat) / 1024 * (1 / 2 ^ f32.p) ≤ 1 / 256 := by linarith
    exact le_trans huu this
  have hroot' : |((2 ^ (n + g') * f64.val (f64.sqrt (widen c)).mag : Nat) : Rat) ^ 2 / (2 ^ (f64.eta + g')) ^ 2 - 2 ^ (3 * f32.eta) / 2 ^ (2 * m) * (f32.val c.mag : Rat)| ≤
      1 / 2 * (2 ^ (3 * f32.eta) / 2 ^ (2 * m) * (f32.val c.mag : Rat)) := by
    refine le_trans hroot ?_
    apply mul_le_mul_of_nonneg_right _ hS0
    linarith
  obtain ⟨s1, hs1⟩ : ∃ s1, f64.eta + g' = s1 + 1 := ⟨f64.eta + g' - 1, by omega⟩
  have hPge : 2 ^ s1 ≤ 2 ^ (n + g') * f64.val (f64.sqrt (widen c)).mag := by
    rw [hs1] at hroot'
    exact root_ge_half hroot' (le_trans hM2 hlow)
  obtain ⟨k, hk1, hk2⟩ : ∃ k, f32.p + f32.emax - 2 ≤ 2 * k ∧ k + 1 ≤ f32.p + f32.emax - 3 := ⟨139, by decide, by decide⟩
  have hPlt := root_lt (k := k) hroot' (scaled_lt hnm hn2 hcf hk1)
  obtain ⟨mant, e, h1, h2, _⟩ := val_decomp (F := f64) (f64.sqrt (widen c)).mag
  have ⟨hp64, _⟩ := f64.facts
  have hex : rndZ f64.p ((2 ^ (n + g') * f64.val (f64.sqrt (widen c)).mag : Nat) : Int) = ((2 ^ (n + g') * f64.val (f64.sqrt (widen c)).mag : Nat) : Int) :=
    rndZ_exact (by omega) (m := mant) (e := n + g' + e) (by rw [Int.natAbs_natCast, h1, Nat.pow_add]; ring) h2
  have hmul : f64.mul (widen (ssqSpec f32 fold xs).1) (f64.sqrt (widen c)) =
      ⟨false, f64.roundMag (2 ^ (n + g') * f64.val (f64.sqrt (widen c)).mag) f64.eta⟩ := by
    rw [mul_fin w1 g1, w2, g2, w3, Nat.pow_add]; rfl
  rw [hmul]
  generalize 2 ^ (n + g') * f64.val (f64.sqrt (widen c)).mag = P at *
  have h53 : f64.p = 53 := rfl
  obtain ⟨D, r1, r2, r3⟩ := round_any (F := f64) (n := P) (s := f64.eta)
    (Nat.le_trans (Nat.pow_le_pow_right (by omega) (by omega)) hPge)
  rw [hex, Int.natAbs_natCast] at r1
  have hDlt : D < 2 ^ (k + 1 + g') := by
    rw [← r1, show k + 1 + (f64.eta + g') = k + 1 + g' + f64.eta by omega, Nat.pow_add 2 (k + 1 + g')] at hPlt
    exact Nat.lt_of_mul_lt_mul_right hPlt
  have hb : k + 1 + g' ≤ f64.p + f64.emax - 2 := by
    have a1 : f32.p + f32.emax - 3 = 276 := by decide
    have a2 : f64.p + f64.emax - 2 = 2098 := by decide
    omega
  obtain ⟨d1, d2⟩ := r2 (Nat.lt_of_lt_of_le hDlt (Nat.pow_le_pow_right (by omega) hb))
  have hnar : narrow ⟨false, f64.roundMag P f64.eta⟩ = ⟨false, f32.roundMag D g'⟩ := by
    rw [narrow_eq (y := ⟨false, f64.roundMag P f64.eta⟩) hg d1 rfl]
    show (⟨false, f32.roundMag (f64.val (f64.roundMag P f64.eta)) g'⟩ : Flt) = _
    rw [d2]
  rw [hnar]
  obtain ⟨l1, R, l2, l3, l4⟩ := last_any (F := f32) (D := D) (s := g') hu (Nat.lt_of_lt_of_le hDlt (Nat.pow_le_pow_right (by omega) (by omega)))
  refine ⟨R, l2, ?_, rfl, l1, l4⟩
  have hd : (0 : Rat) ≤ xs.length / 2 ^ (f32.W * (fold - 1)) := div_nonneg (Nat.cast_nonneg _) (pow_nonneg (by norm_num) _)
  have hQ : (0 : Rat) ≤ sumSq f32 xs := by exact_mod_cast sumSq_nonneg f32 xs
  have hDP : (D : Rat) ^ 2 / (2 ^ g') ^ 2 = (P : Rat) ^ 2 / (2 ^ (f64.eta + g')) ^ 2 := by
    rw [sq_shift r1, pow_add, mul_pow, div_div]
  rw [hDP] at l3
  generalize (2 : Rat) ^ (3 * f32.eta) / 2 ^ (2 * m) * (f32.val c.mag : Rat) = S' at *
  generalize (P : Rat) ^ 2 / (2 ^ (f64.eta + g')) ^ 2 = P0 at *
  generalize (1 : Rat) / 2 ^ f32.p = u at *
  generalize (1 : Rat) / 2 ^ f64.p = v at *
  exact chain2 hu0 hu hd hQ herr (two_roundings hu0 hu hu64 huu hS0 l3 hroot)

/-- The number `r` is the 2-norm of the numbers `xs` up to the error allowed and the last rounding: if `r` is finite, it is not
negative and within half a unit (of `2^-eta`, the least positive number) of a number `R` whose square differs from the exact sum of
squares by at most the relative error `normErr`; and `r` is finite unless the exact norm reaches the overflow threshold
`2^MAX_EXP` up to that error. -/
def IsNormAbs (F : Fmt) (fold : Nat) (xs : List Flt) (r : Flt) : Prop :=
  (F.Finite r → 0 ≤ F.toInt r ∧ ∃ R : Rat, 0 ≤ R ∧ |R ^ 2 - sumSq F xs| ≤ normErr F fold xs.length * sumSq F xs ∧ |F.toInt r - R| ≤ 1 / 2) ∧
  ((1 + normErr F fold xs.length) * sumSq F xs < (2 ^ (F.eta + F.maxExp)) ^ 2 → F.Finite r)

theorem toInt_pos_eq {r : Flt} (h : r.neg = false) : F.toInt r = (F.val r.mag : Int) := by
  unfold toInt; rw [h]; rfl

/-- Zeros only. -/
theorem norm_zeros [F.OK] {fold : Nat} (hfold : 2 ≤ fold) (hfold' : fold < 2 ^ 50) {xs : List Flt} (hf : ∀ x ∈ xs, F.Finite x) (hN : xs.length ≤ F.capacity) (h0 : F.val (maxMag xs) = 0) :
    normOf F fold (ssqSpec F fold xs) = zero ∧ sumSq F xs = 0 := by
  have hx0 : ∀ x ∈ xs, x.mag = 0 := fun x hx => by
    have h1 := le_maxMag hx
    have h2 := (val_eq_zero (F := F)).1 h0
    omega
  constructor
  · have hs : F.Finite (ssqSpec F fold xs).1 ∧ (ssqSpec F fold xs).1.neg = false ∧ convert F fold (ssqSpec F fold xs).2 = zero := by
      by_cases hne : xs = []
      · subst hne
        rw [C29_start]
        exact ⟨zero_finite, rfl, (C19_sequences (F := F) hfold hfold').1⟩
      · have hMf := maxMag_finite hne hf
        obtain ⟨n, m, hz, hS, hvn, hw⟩ := scale_of hMf
        have e1 : (ssqSpec F fold xs).1 = F.dscale ⟨false, maxMag xs⟩ := by
          unfold ssqSpec scaleOf; dsimp only; rw [if_neg hne]
        have hv : ∀ v ∈ xs.map (F.sq (ssqSpec F fold xs).1), v.mag = 0 := by
          intro v hv
          obtain ⟨x, hx, rfl⟩ := List.mem_map.1 hv
          rw [e1, sq_mag hS (hf x hx) (y := zero) (hx0 x hx)]
          exact sq_zero_mag hS
        have hN' : (xs.map (F.sq (ssqSpec F fold xs).1)).length ≤ F.capacity := by rw [List.length_map]; exact hN
        refine ⟨by rw [e1]; exact hS.fin, by rw [e1]; exact hS.neg, ?_⟩
        have h := (C19_sequences (F := F) hfold hfold').2.1 _ hv hN'
        rw [C01_sum_is_spec hfold (fun v hm => by
          have : F.Finite (zero : Flt) := zero_finite
          show v.mag < _
          rw [hv v hm]; exact this) hN'] at h
        exact h
    obtain ⟨s1, s2, s3⟩ := hs
    have hmz : ∀ {S : Flt}, f64.Finite S → S.neg = false → f64.mul S (f64.sqrt zero) = zero := by
      intro S a b
      have e : f64.sqrt zero = zero := by decide +kernel
      rw [e, mul_fin a (zero_finite (F := f64)), b, (val_eq_zero (F := f64) (m := zero.mag)).2 rfl, Nat.mul_zero]
      decide +kernel
    unfold normOf
    rcases ‹F.OK›.isDoubleOrFloat with h | h
    · subst h
      rw [if_neg (by decide), s3]
      exact hmz s1 s2
    · subst h
      rw [if_pos rfl, s3]
      obtain ⟨g, -, w1, w2, -⟩ := widen_val s1 s2
      have e : widen zero = zero := by decide +kernel
      rw [e, hmz w1 w2]
      decide +kernel
  · unfold sumSq
    apply List.sum_eq_zero
    intro a ha
    obtain ⟨x, hx, rfl⟩ := List.mem_map.1 ha
    have h := (val_eq_zero (F := F)).2 (hx0 x hx)
    have : F.toInt x = 0 := by rw [← Int.natAbs_eq_zero, toInt_natAbs]; exact h
    rw [this]; rfl

/-- The norm of the specified scaled sum of squares, for all finite numbers. -/
theorem norm_spec_all [F.OK] {fold : Nat} (hfold : 2 ≤ fold) (hJ : F.ssqHi + fold ≤ F.ssqJ) {xs : List Flt}
    (hf : ∀ x ∈ xs, F.Finite x) (hN : xs.length ≤ F.capacity) :
    IsNormAbs F fold xs (normOf F fold (ssqSpec F fold xs)) := by
  have ee : normErr F fold xs.length = 16 * (1 / 2 ^ F.p) + 2 * (xs.length / 2 ^ (F.W * (fold - 1))) := by
    unfold normErr; ring
  have hfold' : fold < 2 ^ 50 := by
    have : F.ssqJ < 2 ^ 50 := by rcases ‹F.OK›.isDoubleOrFloat with h | h <;> rw [h] <;> decide
    omega
  by_cases h0 : F.val (maxMag xs) = 0
  · obtain ⟨z1, z2⟩ := norm_zeros hfold hfold' hf hN h0
    rw [z1]
    have t0 : F.toInt zero = 0 := by
      rw [toInt_pos_eq rfl, (val_eq_zero (F := F) (m := zero.mag)).2 rfl]; rfl
    refine ⟨fun _ => ⟨by rw [t0], 0, le_refl _, ?_, by rw [t0]; norm_num⟩, fun _ => zero_finite⟩
    rw [z2]; norm_num
  by_cases hb : 2 ^ (F.p + 1) ≤ F.val (maxMag xs)
  · have hne : xs ≠ [] := by
      rintro rfl
      exact h0 ((val_eq_zero (F := F)).2 rfl)
    obtain ⟨x, hx, hm⟩ := maxMag_mem hne
    obtain ⟨k1, k2⟩ := norm_spec hfold (by omega) hf hN ⟨x, hx, by rw [toInt_natAbs, hm]; exact hb⟩
    refine ⟨fun hfin => ?_, k2⟩
    obtain ⟨a, b⟩ := k1 hfin
    exact ⟨a, F.toInt (normOf F fold (ssqSpec F fold xs)), by exact_mod_cast a, b, by rw [sub_self, abs_zero]; norm_num⟩
  · have key : ∃ R : Rat, 0 ≤ R ∧ |R ^ 2 - sumSq F xs| ≤ (16 * (1 / 2 ^ F.p) + 2 * (xs.length / 2 ^ (F.W * (fold - 1)))) * (sumSq F xs : Rat) ∧
        (normOf F fold (ssqSpec F fold xs)).neg = false ∧ F.Finite (normOf F fold (ssqSpec F fold xs)) ∧
        |(F.val (normOf F fold (ssqSpec F fold xs)).mag : Rat) - R| ≤ 1 / 2 := by
      rcases ‹F.OK›.isDoubleOrFloat with h | h
      · subst h; exact norm64_small hfold hJ hf hN (by omega) (by omega)
      · subst h; exact norm32_small hfold hJ hf hN (by omega) (by omega)
    obtain ⟨R, r1, r2, r3, r4, r5⟩ := key
    refine ⟨fun _ => ⟨?_, R, r1, by rw [ee]; exact r2, ?_⟩, fun _ => r4⟩
    · rw [toInt_pos_eq r3]; exact Int.natCast_nonneg _
    · rw [toInt_pos_eq r3]; push_cast; exact r5

/-- **C56** (all numbers). The 2-norm of every finite real vector, whatever the strides and the tuning, however far apart, however
small its elements: no lower bound is asked for. -/
theorem C56_norm_all [F.OK] {T : Tune} (hT : T.OK F) {fold : Nat} (hfold : 2 ≤ fold) (hJ : F.ssqHi + fold ≤ F.ssqJ) {n : Nat} {X : Int → Flt} {incX : Int}
    (hx : ∀ i : Nat, i < n → F.Finite (X (i * incX))) (hN : n ≤ F.capacity) :
    IsNormAbs F fold (gather X incX n) (rdnrm2 F T fold n X incX) := by
  have hspec : rdnrm2 F T fold n X incX = normOf F fold (ssqSpec F fold (gather X incX n)) := by
    unfold rdnrm2
    have a := C29_ssq_is_spec hT hfold (by omega) (ps := []) (by simp) hx (by simpa using hN)
    rw [C29_start] at a
    rw [a, List.nil_append]
  rw [hspec]
  refine norm_spec_all hfold hJ ?_ (by rw [gather_length]; exact hN)
  intro x hxm
  obtain ⟨i, hi, rfl⟩ := mem_gather hxm
  exact hx i hi

/-- **C56** (all numbers, complex). Likewise for complex vectors. -/
theorem C56_znorm_all [F.OK] {T : Tune} (hT : T.OK F) {fold : Nat} (hfold : 2 ≤ fold) (hJ : F.ssqHi + fold ≤ F.ssqJ) {n : Nat} {X : Int → Flt × Flt} {incX : Int}
    (hx : ∀ x ∈ parts (gatherZ X incX n), F.Finite x) (hN : 2 * n ≤ F.capacity) :
    IsNormAbs F fold (parts (gatherZ X incX n)) (rdznrm2 F T fold n X incX) := by
  have hx' : ∀ i : Nat, i < n → F.Finite (X (i * incX)).1 ∧ F.Finite (X (i * incX)).2 := fun i hi =>
    have hm : X (i * incX) ∈ gatherZ X incX n := List.mem_map.2 ⟨i, List.mem_range.2 hi, rfl⟩
    ⟨hx _ (mem_parts.2 ⟨_, hm, Or.inl rfl⟩), hx _ (mem_parts.2 ⟨_, hm, Or.inr rfl⟩)⟩
  have hspec : rdznrm2 F T fold n X incX = normOf F fold (ssqSpec F fold (parts (gatherZ X incX n))) := by
    unfold rdznrm2
    have a := C51_ssq_is_spec hT hfold (by omega) (qs := []) (by simp) hx' (by simpa using hN)
    rw [C29_start] at a
    rw [a, List.nil_append]
  rw [hspec]
  exact norm_spec_all hfold hJ hx (by rw [parts_length, gatherZ_length]; exact hN)

/-- **C56** (zero). The norm of a vector of zeros of either sign, and of the empty vector, is plus zero. -/
theorem C56_norm_zero [F.OK] {T : Tune} (hT : T.OK F) {fold : Nat} (hfold : 2 ≤ fold) (hJ : F.ssqHi + fold ≤ F.ssqJ + 1) {n : Nat} {X : Int → Flt} {incX : Int}
    (hx : ∀ i : Nat, i < n → (X (i * incX)).mag = 0) (hN : n ≤ F.capacity) : rdnrm2 F T fold n X incX = zero := by
  have hxf : ∀ i : Nat, i < n → F.Finite (X (i * incX)) := fun i hi => by
    have : F.Finite (zero : Flt) := zero_finite
    show (X (i * incX)).mag < _
    rw [hx i hi]; exact this
  have hspec : rdnrm2 F T fold n X incX = normOf F fold (ssqSpec F fold (gather X incX n)) := by
    unfold rdnrm2
    have a := C29_ssq_is_spec hT hfold hJ (ps := []) (by simp) hxf (by simpa using hN)
    rw [C29_start] at a
    rw [a, List.nil_append]
  rw [hspec]
  have hfold' : fold < 2 ^ 50 := by
    have : F.ssqJ + 1 < 2 ^ 50 := by rcases ‹F.OK›.isDoubleOrFloat with h | h <;> rw [h] <;> decide
    omega
  have h0 : maxMag (gather X incX n) = 0 := by
    by_cases hne : gather X incX n = []
    · rw [hne]; rfl
    · obtain ⟨x, hxm, e⟩ := maxMag_mem hne
      obtain ⟨i, hi, rfl⟩ := mem_gather hxm
      rw [← e, hx i hi]
  refine (norm_zeros hfold hfold' (fun x hxm => ?_) (by rw [gather_length]; exact hN) ((val_eq_zero (F := F)).2 h0)).1
  obtain ⟨i, hi, rfl⟩ := mem_gather hxm
  exact hxf i hi

example : (⟨1, 1, 1, 1, 1, false⟩ : Tune).OK f32 ∧ f32.ssqHi + 3 ≤ f32.ssqJ + 1 ∧ (∀ i : Nat, i < 5 → ((fun _ : Int => (⟨true, 0⟩ : Flt)) (i * 1)).mag = 0) :=
  ⟨tuneOne_ok.2, by decide, fun _ _ => rfl⟩

/-- The folds `C56_norm_all` covers. -/
theorem C56_folds : (∀ fold, f64.ssqHi + fold ≤ f64.ssqJ ↔ fold ≤ 21) ∧ (∀ fold, f32.ssqHi + fold ≤ f32.ssqJ ↔ fold ≤ 5) := by
  have a : f64.ssqHi = 27 := by decide
  have b : f64.ssqJ = 48 := by decide
  have c : f32.ssqHi = 11 := by decide
  have d : f32.ssqJ = 16 := by decide
  rw [a, b, c, d]
  exact ⟨fun _ => by omega, fun _ => by omega⟩

/-- Subnormal numbers only: 3, 4 and 12 units have norm 13 units. -/
example : (⟨1, 1, 1, 1, 1, false⟩ : Tune).OK f64 ∧ f64.ssqHi + 3 ≤ f64.ssqJ ∧ 3 ≤ f64.capacity ∧
    (∀ i : Nat, i < 3 → f64.Finite ((fun i : Int => (⟨false, [3, 4, 12].getD i.toNat 0⟩ : Flt)) (i * 1))) ∧
    rdnrm2 f64 ⟨1, 1, 1, 1, 1, false⟩ 3 3 (fun i : Int => (⟨false, [3, 4, 12].getD i.toNat 0⟩ : Flt)) 1 = ⟨false, 13⟩ :=
  ⟨tuneOne_ok.1, by decide, by decide +kernel, by decide +kernel, by decide +kernel⟩

example : (⟨1, 1, 1, 1, 1, false⟩ : Tune).OK f32 ∧ f32.ssqHi + 3 ≤ f32.ssqJ ∧ 2 * 1 ≤ f32.capacity ∧
    (∀ x ∈ parts (gatherZ (fun _ : Int => (⟨false, 3⟩, ⟨true, 4⟩)) 1 1), f32.Finite x) ∧
    rdznrm2 f32 ⟨1, 1, 1, 1, 1, false⟩ 3 1 (fun _ : Int => (⟨false, 3⟩, ⟨true, 4⟩)) 1 = ⟨false, 5⟩ :=
  ⟨tuneOne_ok.2, by decide, by decide +kernel, by decide +kernel, by decide +kernel⟩

end Repro
