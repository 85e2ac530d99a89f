import Verif.NormCore
import Verif.PropsZSsq

/-!
# C56: the 2-norm is accurate

Independent vocabulary: `sumSq` (the exact sum of the squares of the elements, in units of `2^(-2 eta)`), `Fmt.toInt` (the exact
value of a number in units of `2^-eta`).
-/

namespace Repro
open Fmt

variable {F : Fmt}

/-- The scaled root before the last rounding; `g` is the difference of the units when the root is taken in double. -/
theorem scaled_root {n m e e' g sv vc : Nat} {a : Rat} (hnm : n + m = 2 * e) (hg : e' = e + g)
    (hs : |(sv : Rat) ^ 2 - vc * 2 ^ g * 2 ^ e'| ≤ a * ((vc : Rat) * 2 ^ g * 2 ^ e')) :
    |((2 ^ (n + g) * sv : Nat) : Rat) ^ 2 / (2 ^ (e' + g)) ^ 2 - 2 ^ (3 * e) / 2 ^ (2 * m) * vc| ≤ a * (2 ^ (3 * e) / 2 ^ (2 * m) * (vc : Rat)) := by
  have hK : (2 : Rat) ^ (3 * e) / 2 ^ (2 * m) * vc = (2 ^ (2 * n) / 2 ^ (2 * e')) * (vc * 2 ^ g * 2 ^ e') := by
    rw [div_mul_eq_mul_div, div_mul_eq_mul_div, div_eq_div_iff (by positivity) (by positivity)]
    have e1 : (2 : Rat) ^ (3 * e) * 2 ^ (2 * e') = 2 ^ (2 * n) * 2 ^ g * 2 ^ e' * 2 ^ (2 * m) := by
      rw [← pow_add, ← pow_add, ← pow_add, ← pow_add]; congr 1; omega
    calc (2 : Rat) ^ (3 * e) * vc * 2 ^ (2 * e') = (2 ^ (3 * e) * 2 ^ (2 * e')) * vc := by ring
      _ = _ := by rw [e1]; ring
  have hP : ((2 ^ (n + g) * sv : Nat) : Rat) ^ 2 / (2 ^ (e' + g)) ^ 2 = (2 ^ (2 * n) / 2 ^ (2 * e')) * (sv : Rat) ^ 2 := by
    push_cast
    rw [pow_add, pow_add, Nat.mul_comm 2 n, Nat.mul_comm 2 e', pow_mul, pow_mul]
    field_simp
  have hA : (0 : Rat) < 2 ^ (2 * n) / 2 ^ (2 * e') := by positivity
  rw [hK, hP, ← mul_sub, abs_mul, abs_of_pos hA]
  calc 2 ^ (2 * n) / 2 ^ (2 * e') * |(sv : Rat) ^ 2 - vc * 2 ^ g * 2 ^ e'| ≤ 2 ^ (2 * n) / 2 ^ (2 * e') * (a * (vc * 2 ^ g * 2 ^ e')) :=
        mul_le_mul_of_nonneg_left hs (le_of_lt hA)
    _ = _ := by ring

theorem sq_shift {R P s : Nat} (h : R * 2 ^ s = P) : (R : Rat) ^ 2 = (P : Rat) ^ 2 / (2 ^ s) ^ 2 := by
  rw [← h]
  push_cast
  rw [mul_pow, mul_div_assoc, div_self (by positivity), mul_one]

/-- A lower bound for the scaled root. -/
theorem root_ge {P s k : Nat} {S : Rat} (h : |(P : Rat) ^ 2 / (2 ^ s) ^ 2 - S| ≤ 1 / 2 * S) (hS : 2 ^ (2 * k + 1) ≤ S) : 2 ^ (k + s) ≤ P := by
  have h1 := (abs_le.1 h).1
  have h2 : (2 : Rat) ^ (2 * k) ≤ (P : Rat) ^ 2 / (2 ^ s) ^ 2 := by
    rw [pow_succ] at hS
    linarith
  rw [le_div_iff₀ (by positivity), ← pow_mul, ← pow_add] at h2
  by_contra hc
  have h3 : (P : Rat) < 2 ^ (k + s) := by exact_mod_cast Nat.lt_of_not_le hc
  have h4 : (P : Rat) ^ 2 < (2 ^ (k + s)) ^ 2 := by gcongr
  rw [← pow_mul, show (k + s) * 2 = 2 * k + s * 2 by omega] at h4
  linarith

/-- An upper bound for the scaled root. -/
theorem root_lt {P s k : Nat} {S : Rat} (h : |(P : Rat) ^ 2 / (2 ^ s) ^ 2 - S| ≤ 1 / 2 * S) (hS : S < 2 ^ (2 * k)) : P < 2 ^ (k + 1 + s) := by
  have h1 := (abs_le.1 h).2
  by_contra hc
  have h3 : (2 : Rat) ^ (k + 1 + s) ≤ P := by exact_mod_cast Nat.le_of_not_lt hc
  have h4 : ((2 : Rat) ^ (k + 1 + s)) ^ 2 ≤ (P : Rat) ^ 2 := by gcongr
  have h5 : ((2 : Rat) ^ (k + 1 + s)) ^ 2 / (2 ^ s) ^ 2 ≤ (P : Rat) ^ 2 / (2 ^ s) ^ 2 := by gcongr
  have h6 : ((2 : Rat) ^ (k + 1 + s)) ^ 2 / (2 ^ s) ^ 2 = 4 * 2 ^ (2 * k) := by
    rw [pow_add, mul_pow, mul_div_assoc, div_self (by positivity), mul_one, ← pow_mul, show (k + 1) * 2 = 2 + 2 * k by omega, pow_add]
    norm_num
  have h7 : (0 : Rat) < 2 ^ (2 * k) := by positivity
  rw [h6] at h5
  linarith

/-- Two roundings in a row. -/
theorem two_roundings {A B C u v : Rat} (hu0 : 0 ≤ u) (hu : u ≤ 1 / 256) (hv0 : 0 ≤ v) (hv : v ≤ 1 / 1024 * u) (hC : 0 ≤ C)
    (h1 : |A - B| ≤ 9 / 4 * u * B) (h2 : |B - C| ≤ 5 / 2 * v * C) : |A - C| ≤ 3 * u * C := by
  have huC := mul_nonneg hu0 hC
  have hvC := mul_nonneg hv0 hC
  have hvC2 : v * C ≤ 1 / 1024 * u * C := mul_le_mul_of_nonneg_right hv hC
  have a1 := abs_le.1 h2
  have hB : B ≤ (1 + 1 / 256) * C := by
    have : u * C ≤ 1 / 256 * C := mul_le_mul_of_nonneg_right hu hC
    linarith
  have a2 : 9 / 4 * u * B ≤ 9 / 4 * u * ((1 + 1 / 256) * C) := mul_le_mul_of_nonneg_left hB (by linarith)
  have e : A - C = (A - B) + (B - C) := by ring
  rw [e]
  refine le_trans (abs_add_le _ _) ?_
  linarith

theorem sumSq_nonneg (F : Fmt) (xs : List Flt) : 0 ≤ sumSq F xs := by
  unfold sumSq
  apply List.sum_nonneg
  intro a ha
  obtain ⟨x, _, rfl⟩ := List.mem_map.1 ha
  exact sq_nonneg _

/-- The double routine, on the specified scaled sum of squares. -/
theorem norm64 {fold : Nat} (hfold : 2 ≤ fold) (hJ : f64.ssqHi + fold ≤ f64.ssqJ + 1) {xs : List Flt} (hf : ∀ x ∈ xs, f64.Finite x)
    (hN : xs.length ≤ f64.capacity) (hbig : 2 ^ (f64.p + 1) ≤ f64.val (maxMag xs)) :
    ∃ R : Nat, |(R : Rat) ^ 2 - sumSq f64 xs| ≤ (16 * (1 / 2 ^ f64.p) + 2 * (xs.length / 2 ^ (f64.W * (fold - 1)))) * (sumSq f64 xs : Rat) ∧
      (R < 2 ^ (f64.p + f64.emax - 2) → normOf f64 fold (ssqSpec f64 fold xs) = ⟨false, (normOf f64 fold (ssqSpec f64 fold xs)).mag⟩ ∧
        f64.Finite (normOf f64 fold (ssqSpec f64 fold xs)) ∧ f64.val (normOf f64 fold (ssqSpec f64 fold xs)).mag = R) ∧
      (2 ^ (f64.p + f64.emax - 2) ≤ R → normOf f64 fold (ssqSpec f64 fold xs) = f64.inf false) := by
  obtain ⟨n, m, hS, hcf, hcn, herr, hlow⟩ := ssq_core hfold hJ hf hN hbig
  have hnm := hS.nm
  have ⟨hp, _⟩ := f64.facts
  unfold normOf
  rw [if_neg (by decide)]
  generalize convert f64 fold (ssqSpec f64 fold xs).2 = c at *
  generalize (ssqSpec f64 fold xs).1 = S at *
  have hM : (2 : Rat) ^ (f64.p + 1) ≤ f64.val (maxMag xs) := by exact_mod_cast hbig
  have hM2 : ((2 : Rat) ^ (f64.p + 1)) ^ 2 ≤ (f64.val (maxMag xs) : Rat) ^ 2 := by gcongr
  have hM3 : (2 : Rat) ^ (2 * f64.p + 1) ≤ (f64.val (maxMag xs) : Rat) ^ 2 / 2 := by
    rw [← pow_mul, show (f64.p + 1) * 2 = 2 * f64.p + 1 + 1 by omega, pow_succ] at hM2
    linarith
  have hc0 : c.mag ≠ 0 := by
    intro h
    have h0 : f64.val c.mag = 0 := (val_eq_zero (F := f64)).2 h
    rw [h0] at hlow
    have : (0 : Rat) < 2 ^ (2 * f64.p + 1) := by positivity
    simp only [Nat.cast_zero, mul_zero] at hlow
    linarith
  obtain ⟨g1, g2, g3⟩ := sqrt_err (F := f64) (by decide) (by decide) (by decide) hcf hcn hc0
  have hu0 : (0 : Rat) ≤ 1 / 2 ^ f64.p := by positivity
  have hu : (1 : Rat) / 2 ^ f64.p ≤ 1 / 256 := by
    apply one_div_le_one_div_of_le (by norm_num)
    calc (256 : Rat) = 2 ^ 8 := by norm_num
      _ ≤ 2 ^ f64.p := pow_le_pow_right₀ (by norm_num) (by omega)
  have hroot := scaled_root (g := 0) (e' := f64.eta) (n := n) (m := m) (sv := f64.val (f64.sqrt c).mag) (vc := f64.val c.mag) hnm rfl
    (a := 5 / 2 * (1 / 2 ^ f64.p)) (by rw [pow_zero, mul_one]; exact g3)
  rw [Nat.add_zero, Nat.add_zero] at hroot
  have hS0 : (0 : Rat) ≤ 2 ^ (3 * f64.eta) / 2 ^ (2 * m) * (f64.val c.mag : Rat) := by positivity
  have hPge : 2 ^ (f64.p + f64.eta) ≤ 2 ^ n * f64.val (f64.sqrt c).mag := by
    refine root_ge (S := 2 ^ (3 * f64.eta) / 2 ^ (2 * m) * (f64.val c.mag : Rat)) ?_ (le_trans hM3 hlow)
    have := mul_le_mul_of_nonneg_right hu hS0
    linarith
  rw [mul_fin hS.fin g1, hS.neg, g2, hS.val]
  obtain ⟨mant, e, h1, h2, _⟩ := val_decomp (F := f64) (f64.sqrt c).mag
  have hex : rndZ f64.p ((2 ^ n * f64.val (f64.sqrt c).mag : Nat) : Int) = ((2 ^ n * f64.val (f64.sqrt c).mag : Nat) : Int) :=
    rndZ_exact (by omega) (m := mant) (e := n + e) (by rw [Int.natAbs_natCast, h1, Nat.pow_add]; ring) h2
  generalize 2 ^ n * f64.val (f64.sqrt c).mag = P at *
  obtain ⟨R, r1, r2, r3⟩ := round_any (F := f64) (n := P) (s := f64.eta)
    (Nat.le_trans (Nat.pow_le_pow_right (by omega) (by omega)) hPge)
  rw [hex, Int.natAbs_natCast] at r1
  refine ⟨R, ?_, fun h => ⟨rfl, r2 h⟩, fun h => by rw [r3 h]; rfl⟩
  rw [sq_shift r1]
  have hd : (0 : Rat) ≤ xs.length / 2 ^ (f64.W * (fold - 1)) := div_nonneg (Nat.cast_nonneg _) (pow_nonneg (by norm_num) _)
  have hQ : (0 : Rat) ≤ sumSq f64 xs := by exact_mod_cast sumSq_nonneg f64 xs
  generalize (2 : Rat) ^ (3 * f64.eta) / 2 ^ (2 * m) * (f64.val c.mag : Rat) = S' at *
  generalize ((2 : Rat) ^ f64.eta) ^ 2 = B at *
  generalize (1 : Rat) / 2 ^ f64.p = u at *
  refine chain2 hu0 hu hd hQ herr (le_trans hroot ?_)
  · apply mul_le_mul_of_nonneg_right _ hS0
    linarith

theorem widen_val {x : Flt} (hx : f32.Finite x) (hn : x.neg = false) : ∃ g : Nat, g = 925 ∧ f64.Finite (widen x) ∧ (widen x).neg = false ∧
    f64.val (widen x).mag = f32.val x.mag * 2 ^ g := by
  obtain ⟨h1, h2, h3⟩ := widen_ok hx
  refine ⟨925, rfl, h1, by rw [h3, hn], ?_⟩
  have := congrArg Int.natAbs h2
  rw [Int.natAbs_mul, toInt_natAbs, toInt_natAbs, Int.natAbs_pow] at this
  exact this

theorem narrow_eq {g : Nat} (hg : g = 925) {y : Flt} (hy : f64.Finite y) (hn : y.neg = false) : narrow y = ⟨false, f32.roundMag (f64.val y.mag) g⟩ := by
  have ⟨y1, y2⟩ := finite_iff.1 hy
  rw [hg]
  unfold narrow
  rw [y1, y2, hn]; rfl

/-- The float routine, on the specified scaled sum of squares. -/
theorem norm32 {fold : Nat} (hfold : 2 ≤ fold) (hJ : f32.ssqHi + fold ≤ f32.ssqJ + 1) {xs : List Flt} (hf : ∀ x ∈ xs, f32.Finite x)
    (hN : xs.length ≤ f32.capacity) (hbig : 2 ^ (f32.p + 1) ≤ f32.val (maxMag xs)) :
    ∃ R : Nat, |(R : Rat) ^ 2 - sumSq f32 xs| ≤ (16 * (1 / 2 ^ f32.p) + 2 * (xs.length / 2 ^ (f32.W * (fold - 1)))) * (sumSq f32 xs : Rat) ∧
      (R < 2 ^ (f32.p + f32.emax - 2) → normOf f32 fold (ssqSpec f32 fold xs) = ⟨false, (normOf f32 fold (ssqSpec f32 fold xs)).mag⟩ ∧
        f32.Finite (normOf f32 fold (ssqSpec f32 fold xs)) ∧ f32.val (normOf f32 fold (ssqSpec f32 fold xs)).mag = R) ∧
      (2 ^ (f32.p + f32.emax - 2) ≤ R → normOf f32 fold (ssqSpec f32 fold xs) = f32.inf false) := by
  obtain ⟨n, m, hS, hcf, hcn, herr, hlow⟩ := ssq_core hfold hJ hf hN hbig
  have hnm := hS.nm
  have ⟨hp, _⟩ := f32.facts
  have hSlt := val_lt (F := f32) hS.fin
  have hclt := val_lt (F := f32) hcf
  rw [hS.val] at hSlt
  unfold normOf
  rw [if_pos rfl]
  generalize convert f32 fold (ssqSpec f32 fold xs).2 = c at *
  obtain ⟨g, hg, w1, w2, w3⟩ := widen_val hS.fin hS.neg
  obtain ⟨g', hg', c1, c2, c3⟩ := widen_val hcf hcn
  have : g' = g := by omega
  subst this
  rw [hS.val] at w3
  have hM : (2 : Rat) ^ (f32.p + 1) ≤ f32.val (maxMag xs) := by exact_mod_cast hbig
  have hM2 : ((2 : Rat) ^ (f32.p + 1)) ^ 2 ≤ (f32.val (maxMag xs) : Rat) ^ 2 := by gcongr
  have hM3 : (2 : Rat) ^ (2 * f32.p + 1) ≤ (f32.val (maxMag xs) : Rat) ^ 2 / 2 := by
    rw [← pow_mul, show (f32.p + 1) * 2 = 2 * f32.p + 1 + 1 by omega, pow_succ] at hM2
    linarith
  have hc0 : f32.val c.mag ≠ 0 := by
    intro h0
    rw [h0] at hlow
    have : (0 : Rat) < 2 ^ (2 * f32.p + 1) := by positivity
    simp only [Nat.cast_zero, mul_zero] at hlow
    linarith
  have hc0' : (widen c).mag ≠ 0 := by
    intro h
    have h0 : f64.val (widen c).mag = 0 := (val_eq_zero (F := f64)).2 h
    rw [c3] at h0
    have := pow_pos' g'
    rcases Nat.mul_eq_zero.1 h0 with h | h <;> omega
  obtain ⟨g1, g2, g3⟩ := sqrt_err (F := f64) (by decide) (by decide) (by decide) c1 c2 hc0'
  rw [c3] at g3
  have hu0 : (0 : Rat) ≤ 1 / 2 ^ f32.p := by positivity
  have hu64 : (0 : Rat) ≤ 1 / 2 ^ f64.p := by positivity
  have hu : (1 : Rat) / 2 ^ f32.p ≤ 1 / 256 := by
    apply one_div_le_one_div_of_le (by norm_num)
    calc (256 : Rat) = 2 ^ 8 := by norm_num
      _ ≤ 2 ^ f32.p := pow_le_pow_right₀ (by norm_num) (by omega)
  have huu : (1 : Rat) / 2 ^ f64.p ≤ 1 / 1024 * (1 / 2 ^ f32.p) := by
    have e : (2 : Rat) ^ f64.p = 2 ^ 29 * 2 ^ f32.p := by
      rw [← pow_add]; rfl
    rw [e, show (1 : Rat) / (2 ^ 29 * 2 ^ f32.p) = 1 / 2 ^ 29 * (1 / 2 ^ f32.p) by field_simp]
    exact mul_le_mul_of_nonneg_right (by norm_num) hu0
  have heg : f64.eta = f32.eta + g' := by rw [hg]; rfl
  have hroot := scaled_root (g := g') (e := f32.eta) (e' := f64.eta) (n := n) (m := m) (sv := f64.val (f64.sqrt (widen c)).mag) (vc := f32.val c.mag) hnm heg
    (a := 5 / 2 * (1 / 2 ^ f64.p)) (by push_cast at g3; exact g3)
  have hS0 : (0 : Rat) ≤ 2 ^ (3 * f32.eta) / 2 ^ (2 * m) * (f32.val c.mag : Rat) := by positivity
  have hu64s : (1 : Rat) / 2 ^ f64.p ≤ 1 / 256 := by
    have : (1 : Rat) / 1024 * (1 / 2 ^ f32.p) ≤ 1 / 256 := by linarith
    exact le_trans huu this
  have hroot' : |((2 ^ (n + g') * f64.val (f64.sqrt (widen c)).mag : Nat) : Rat) ^ 2 / (2 ^ (f64.eta + g')) ^ 2 - 2 ^ (3 * f32.eta) / 2 ^ (2 * m) * (f32.val c.mag : Rat)| ≤
      1 / 2 * (2 ^ (3 * f32.eta) / 2 ^ (2 * m) * (f32.val c.mag : Rat)) := by
    refine le_trans hroot ?_
    apply mul_le_mul_of_nonneg_right _ hS0
    linarith
  have hPge := root_ge (k := f32.p) hroot' (le_trans hM3 hlow)
  have hPlt := root_lt (k := 363) hroot' (by
    have a1 : (2 : Rat) ^ (3 * f32.eta) / 2 ^ (2 * m) ≤ 2 ^ (3 * f32.eta) := div_le_self (by positivity) (one_le_pow₀ (by norm_num))
    have a2 : (f32.val c.mag : Rat) < 2 ^ (f32.p + f32.emax - 2) := by exact_mod_cast hclt
    calc (2 : Rat) ^ (3 * f32.eta) / 2 ^ (2 * m) * (f32.val c.mag : Rat) ≤ 2 ^ (3 * f32.eta) * (f32.val c.mag : Rat) :=
          mul_le_mul_of_nonneg_right a1 (by positivity)
      _ < 2 ^ (3 * f32.eta) * 2 ^ (f32.p + f32.emax - 2) := mul_lt_mul_of_pos_left a2 (by positivity)
      _ ≤ 2 ^ (2 * 363) := by
        rw [← pow_add]
        exact pow_le_pow_right₀ (by norm_num) (by decide))
  obtain ⟨mant, e, h1, h2, _⟩ := val_decomp (F := f64) (f64.sqrt (widen c)).mag
  have ⟨hp64, _⟩ := f64.facts
  have hex : rndZ f64.p ((2 ^ (n + g') * f64.val (f64.sqrt (widen c)).mag : Nat) : Int) = ((2 ^ (n + g') * f64.val (f64.sqrt (widen c)).mag : Nat) : Int) :=
    rndZ_exact (by omega) (m := mant) (e := n + g' + e) (by rw [Int.natAbs_natCast, h1, Nat.pow_add]; ring) h2
  have hmul : f64.mul (widen (ssqSpec f32 fold xs).1) (f64.sqrt (widen c)) =
      ⟨false, f64.roundMag (2 ^ (n + g') * f64.val (f64.sqrt (widen c)).mag) f64.eta⟩ := by
    rw [mul_fin w1 g1, w2, g2, w3, Nat.pow_add]; rfl
  rw [hmul]
  generalize 2 ^ (n + g') * f64.val (f64.sqrt (widen c)).mag = P at *
  obtain ⟨D, r1, r2, r3⟩ := round_any (F := f64) (n := P) (s := f64.eta)
    (Nat.le_trans (Nat.pow_le_pow_right (by omega) (by
      have : f64.p = 53 := rfl
      omega)) hPge)
  rw [hex, Int.natAbs_natCast] at r1
  have hDlt : D < 2 ^ (363 + 1 + g') := by
    rw [← r1, show 363 + 1 + (f64.eta + g') = 363 + 1 + g' + f64.eta by omega, Nat.pow_add 2 (363 + 1 + g')] at hPlt
    exact Nat.lt_of_mul_lt_mul_right hPlt
  have hDge : 2 ^ (f32.p + g') ≤ D := by
    rw [← r1, show f32.p + (f64.eta + g') = f32.p + g' + f64.eta by omega, Nat.pow_add 2 (f32.p + g')] at hPge
    exact Nat.le_of_mul_le_mul_right hPge (pow_pos' _)
  obtain ⟨d1, d2⟩ := r2 (Nat.lt_of_lt_of_le hDlt (Nat.pow_le_pow_right (by omega) (by rw [hg]; decide)))
  have hnar : narrow ⟨false, f64.roundMag P f64.eta⟩ = ⟨false, f32.roundMag D g'⟩ := by
    rw [narrow_eq (y := ⟨false, f64.roundMag P f64.eta⟩) hg d1 rfl]
    show (⟨false, f32.roundMag (f64.val (f64.roundMag P f64.eta)) g'⟩ : Flt) = _
    rw [d2]
  rw [hnar]
  obtain ⟨R, q1, q2, q3⟩ := round_any (F := f32) (n := D) (s := g')
    (Nat.le_trans (Nat.pow_le_pow_right (by omega) (by omega)) hDge)
  refine ⟨R, ?_, fun h => ⟨rfl, q2 h⟩, fun h => by rw [q3 h]; rfl⟩
  have hrr := round_rat (F := f32) D
  rw [← q1] at hrr
  have hd : (0 : Rat) ≤ xs.length / 2 ^ (f32.W * (fold - 1)) := div_nonneg (Nat.cast_nonneg _) (pow_nonneg (by norm_num) _)
  have hQ : (0 : Rat) ≤ sumSq f32 xs := by exact_mod_cast sumSq_nonneg f32 xs
  have hDP : (D : Rat) ^ 2 / (2 ^ g') ^ 2 = (P : Rat) ^ 2 / (2 ^ (f64.eta + g')) ^ 2 := by
    rw [sq_shift r1, pow_add, mul_pow, div_div]
  have hrsq := rel_sq hu0 (by linarith) (Nat.cast_nonneg _) hrr
  have hfin : |(R : Rat) ^ 2 - (D : Rat) ^ 2 / (2 ^ g') ^ 2| ≤ 9 / 4 * (1 / 2 ^ f32.p) * ((D : Rat) ^ 2 / (2 ^ g') ^ 2) := by
    have hB : (0 : Rat) < (2 ^ g') ^ 2 := by positivity
    have e1 : (R : Rat) ^ 2 = ((R * 2 ^ g' : Nat) : Rat) ^ 2 / (2 ^ g') ^ 2 := sq_shift rfl
    rw [e1, ← sub_div, abs_div, abs_of_pos hB, div_le_iff₀ hB, mul_assoc (9 / 4 * (1 / 2 ^ f32.p) : Rat), div_mul_cancel₀ _ (ne_of_gt hB)]
    exact hrsq
  rw [hDP] at hfin
  generalize (2 : Rat) ^ (3 * f32.eta) / 2 ^ (2 * m) * (f32.val c.mag : Rat) = S' at *
  generalize (P : Rat) ^ 2 / (2 ^ (f64.eta + g')) ^ 2 = P0 at *
  generalize (1 : Rat) / 2 ^ f32.p = u at *
  generalize (1 : Rat) / 2 ^ f64.p = v at *
  exact chain2 hu0 hu hd hQ herr (two_roundings hu0 hu hu64 huu hS0 hfin hroot)

/-- The relative error bound of the square of the norm: `2^(4-p) + 2 N 2^(-W (fold-1))`; for double with the default fold 3
this is `2^-49 + N 2^-79`, for float `2^-20 + N 2^-25`. -/
def normErr (F : Fmt) (fold N : Nat) : Rat := 16 / 2 ^ F.p + 2 * N / 2 ^ (F.W * (fold - 1))

/-- The norm of the specified scaled sum of squares. -/
theorem norm_list [F.OK] {fold : Nat} (hfold : 2 ≤ fold) (hJ : F.ssqHi + fold ≤ F.ssqJ + 1) {xs : List Flt}
    (hf : ∀ x ∈ xs, F.Finite x) (hN : xs.length ≤ F.capacity) (hbig : ∃ x ∈ xs, 2 ^ (F.p + 1) ≤ (F.toInt x).natAbs) :
    ∃ R : Nat, |(R : Rat) ^ 2 - sumSq F xs| ≤ normErr F fold xs.length * sumSq F xs ∧
      (R < 2 ^ (F.p + F.emax - 2) → F.Finite (normOf F fold (ssqSpec F fold xs)) ∧ F.toInt (normOf F fold (ssqSpec F fold xs)) = R) ∧
      (2 ^ (F.p + F.emax - 2) ≤ R → normOf F fold (ssqSpec F fold xs) = F.inf false) := by
  have hM : 2 ^ (F.p + 1) ≤ F.val (maxMag xs) := by
    obtain ⟨x, hx, hb⟩ := hbig
    rw [toInt_natAbs] at hb
    exact Nat.le_trans hb (val_mono (le_maxMag hx))
  have key : ∃ R : Nat, |(R : Rat) ^ 2 - sumSq F xs| ≤
        (16 * (1 / 2 ^ F.p) + 2 * (xs.length / 2 ^ (F.W * (fold - 1)))) * (sumSq F xs : Rat) ∧
      (R < 2 ^ (F.p + F.emax - 2) → normOf F fold (ssqSpec F fold xs) = ⟨false, (normOf F fold (ssqSpec F fold xs)).mag⟩ ∧
        F.Finite (normOf F fold (ssqSpec F fold xs)) ∧ F.val (normOf F fold (ssqSpec F fold xs)).mag = R) ∧
      (2 ^ (F.p + F.emax - 2) ≤ R → normOf F fold (ssqSpec F fold xs) = F.inf false) := by
    rcases ‹F.OK›.isDoubleOrFloat with h | h
    · subst h; exact norm64 hfold hJ hf hN hM
    · subst h; exact norm32 hfold hJ hf hN hM
  obtain ⟨R, k1, k2, k3⟩ := key
  refine ⟨R, ?_, ?_, k3⟩
  · unfold normErr
    rw [show (16 : Rat) / 2 ^ F.p + 2 * xs.length / 2 ^ (F.W * (fold - 1)) = 16 * (1 / 2 ^ F.p) + 2 * (xs.length / 2 ^ (F.W * (fold - 1))) by ring]
    exact k1
  · intro h
    obtain ⟨a, b, c⟩ := k2 h
    refine ⟨b, ?_⟩
    rw [a]
    show ((F.val _ : Nat) : Int) = R
    rw [c]

/-- The number `r` is the 2-norm of the numbers `xs` up to the error allowed: if `r` is finite, it is not negative and its square
differs from the exact sum of squares by at most the relative error `normErr`; and `r` is finite unless the exact norm reaches
the overflow threshold `2^MAX_EXP` up to that error. -/
def IsNorm (F : Fmt) (fold : Nat) (xs : List Flt) (r : Flt) : Prop :=
  (F.Finite r → 0 ≤ F.toInt r ∧ |(F.toInt r : Rat) ^ 2 - sumSq F xs| ≤ normErr F fold xs.length * sumSq F xs) ∧
  ((1 + normErr F fold xs.length) * sumSq F xs < (2 ^ (F.eta + F.maxExp)) ^ 2 → F.Finite r)

theorem norm_spec [F.OK] {fold : Nat} (hfold : 2 ≤ fold) (hJ : F.ssqHi + fold ≤ F.ssqJ + 1) {xs : List Flt}
    (hf : ∀ x ∈ xs, F.Finite x) (hN : xs.length ≤ F.capacity) (hbig : ∃ x ∈ xs, 2 ^ (F.p + 1) ≤ (F.toInt x).natAbs) :
    IsNorm F fold xs (normOf F fold (ssqSpec F fold xs)) := by
  obtain ⟨R, k1, k2, k3⟩ := norm_list hfold hJ hf hN hbig
  refine ⟨fun hfin => ?_, fun hov => ?_⟩
  · by_cases h : R < 2 ^ (F.p + F.emax - 2)
    · rw [(k2 h).2]
      exact ⟨Int.natCast_nonneg _, by push_cast; exact k1⟩
    · rw [k3 (by omega)] at hfin
      exact absurd hfin (Nat.lt_irrefl _)
  · have ⟨hp, hW, hWp, hpW, he, he1, hbi, het, hb3, hb4⟩ := F.facts
    refine (k2 ?_).1
    by_contra hc
    have h1 : (2 : Rat) ^ (F.eta + F.maxExp) ≤ R := by
      have : 2 ^ (F.eta + F.maxExp) ≤ R := by
        rw [show F.eta + F.maxExp = F.p + F.emax - 2 by omega]
        omega
      exact_mod_cast this
    have h2 : ((2 : Rat) ^ (F.eta + F.maxExp)) ^ 2 ≤ (R : Rat) ^ 2 := by gcongr
    have h3 := (abs_le.1 k1).2
    linarith

/-- **C56.** The 2-norm of a real vector is accurate and does not overflow or underflow in between, whatever the strides and the
tuning, and however far apart the elements are. At least one element must be at least `2^(p+1)` units, that is four times the
smallest normal number. -/
theorem C56_norm [F.OK] {T : Tune} (hT : T.OK F) {fold : Nat} (hfold : 2 ≤ fold) (hJ : F.ssqHi + fold ≤ F.ssqJ + 1) {n : Nat} {X : Int → Flt} {incX : Int}
    (hx : ∀ i : Nat, i < n → F.Finite (X (i * incX))) (hN : n ≤ F.capacity)
    (hbig : ∃ i : Nat, i < n ∧ 2 ^ (F.p + 1) ≤ (F.toInt (X (i * incX))).natAbs) :
    IsNorm F fold (gather X incX n) (rdnrm2 F T fold n X incX) := by
  have hspec : rdnrm2 F T fold n X incX = normOf F fold (ssqSpec F fold (gather X incX n)) := by
    unfold rdnrm2
    have a := C29_ssq_is_spec hT hfold hJ (ps := []) (by simp) hx (by simpa using hN)
    rw [C29_start] at a
    rw [a, List.nil_append]
  rw [hspec]
  refine norm_spec hfold hJ ?_ (by rw [gather_length]; exact hN) ?_
  · intro x hxm
    obtain ⟨i, hi, rfl⟩ := mem_gather hxm
    exact hx i hi
  · obtain ⟨i, hi, hb⟩ := hbig
    exact ⟨_, List.mem_map.2 ⟨i, List.mem_range.2 hi, rfl⟩, hb⟩

/-- **C56** (complex). Likewise for the 2-norm of a complex vector: the norm of all real and imaginary parts. -/
theorem C56_znorm [F.OK] {T : Tune} (hT : T.OK F) {fold : Nat} (hfold : 2 ≤ fold) (hJ : F.ssqHi + fold ≤ F.ssqJ + 1) {n : Nat} {X : Int → Flt × Flt} {incX : Int}
    (hx : ∀ x ∈ parts (gatherZ X incX n), F.Finite x) (hN : 2 * n ≤ F.capacity)
    (hbig : ∃ x ∈ parts (gatherZ X incX n), 2 ^ (F.p + 1) ≤ (F.toInt x).natAbs) :
    IsNorm F fold (parts (gatherZ X incX n)) (rdznrm2 F T fold n X incX) := by
  have hx' : ∀ i : Nat, i < n → F.Finite (X (i * incX)).1 ∧ F.Finite (X (i * incX)).2 := fun i hi =>
    have hm : X (i * incX) ∈ gatherZ X incX n := List.mem_map.2 ⟨i, List.mem_range.2 hi, rfl⟩
    ⟨hx _ (mem_parts.2 ⟨_, hm, Or.inl rfl⟩), hx _ (mem_parts.2 ⟨_, hm, Or.inr rfl⟩)⟩
  have hspec : rdznrm2 F T fold n X incX = normOf F fold (ssqSpec F fold (parts (gatherZ X incX n))) := by
    unfold rdznrm2
    have a := C51_ssq_is_spec hT hfold hJ (qs := []) (by simp) hx' (by simpa using hN)
    rw [C29_start] at a
    rw [a, List.nil_append]
  rw [hspec]
  exact norm_spec hfold hJ hx (by rw [parts_length, gatherZ_length]; exact hN) hbig

/-- Elements more than a thousand binary orders of magnitude apart: the squares over- and underflow, the norm does not. -/
example : (⟨1, 1, 1, 1, 1, false⟩ : Tune).OK f64 ∧ f64.ssqHi + 3 ≤ f64.ssqJ + 1 ∧
    (∀ i : Nat, i < 3 → f64.Finite ((fun i : Int => f64.pow2 (600 * i - 600)) (i * 1))) ∧ 3 ≤ f64.capacity ∧
    (∃ i : Nat, i < 3 ∧ 2 ^ (f64.p + 1) ≤ (f64.toInt ((fun i : Int => f64.pow2 (600 * i - 600)) (i * 1))).natAbs) ∧
    rdnrm2 f64 ⟨1, 1, 1, 1, 1, false⟩ 3 3 (fun i : Int => f64.pow2 (600 * i - 600)) 1 = f64.pow2 600 :=
  ⟨tuneOne_ok.1, by decide, by decide +kernel, by decide +kernel, ⟨2, by decide +kernel, by decide +kernel⟩, by decide +kernel⟩

example : (⟨1, 1, 1, 1, 1, false⟩ : Tune).OK f32 ∧ f32.ssqHi + 3 ≤ f32.ssqJ + 1 ∧
    (∀ x ∈ parts (gatherZ (fun i : Int => (f32.mul (f32.ofInt 3) (f32.pow2 (100 * i)), f32.mul (f32.ofInt 4) (f32.pow2 (100 * i)))) 1 2), f32.Finite x) ∧ 2 * 2 ≤ f32.capacity ∧
    (∃ x ∈ parts (gatherZ (fun i : Int => (f32.mul (f32.ofInt 3) (f32.pow2 (100 * i)), f32.mul (f32.ofInt 4) (f32.pow2 (100 * i)))) 1 2),
      2 ^ (f32.p + 1) ≤ (f32.toInt x).natAbs) ∧
    rdznrm2 f32 ⟨1, 1, 1, 1, 1, false⟩ 3 2 (fun i : Int => (f32.mul (f32.ofInt 3) (f32.pow2 (100 * i)), f32.mul (f32.ofInt 4) (f32.pow2 (100 * i)))) 1 =
      f32.mul (f32.ofInt 5) (f32.pow2 100) :=
  ⟨tuneOne_ok.2, by decide, by decide +kernel, by decide +kernel, by decide +kernel, by decide +kernel⟩

end Repro
