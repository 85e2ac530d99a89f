import Verif.SsqLemmas
/-!
# Rescaling a binned sum of squares moves it by whole bins
-/

namespace Repro
namespace Fmt
variable {F : Fmt}

theorem div_fin {x y : Flt} (hx : F.Finite x) (hy : F.Finite y) (h0 : y.mag ≠ 0) :
    F.div x y = ⟨x.neg != y.neg, F.roundMag (2 * (2 * (F.val x.mag * 2 ^ F.eta) / F.val y.mag) +
      (if 2 * (F.val x.mag * 2 ^ F.eta) % F.val y.mag = 0 then 0 else 1)) 2⟩ := by
  have ⟨x1, x2⟩ := finite_iff.1 hx
  have ⟨y1, y2⟩ := finite_iff.1 hy
  unfold div
  simp [x1, x2, y1, y2, h0]

theorem mag_ne_of_val [F.OK] {x : Flt} {d : Nat} (h : F.val x.mag = 2 ^ d) : x.mag ≠ 0 := by
  intro hc
  have := (val_eq_zero (F := F)).2 hc
  have := pow_pos' d
  omega

/-- Division by a power of two stays below powers of two. -/
theorem div_small [F.OK] {x y : Flt} {d q : Nat} (hx : F.Finite x) (hy : F.Finite y) (hv : F.val y.mag = 2 ^ d)
    (h : F.val x.mag * 2 ^ F.eta < 2 ^ (q + d)) (hq : q < F.p + F.emax - 2) :
    F.Finite (F.div x y) ∧ F.val (F.div x y).mag ≤ 2 ^ q := by
  rw [div_fin hx hy (mag_ne_of_val hv), hv]
  have h1 : 2 * (F.val x.mag * 2 ^ F.eta) / 2 ^ d < 2 ^ (q + 1) := by
    rw [Nat.div_lt_iff_lt_mul (pow_pos' _), ← Nat.pow_add, show q + 1 + d = (q + d) + 1 by omega, Nat.pow_succ]
    omega
  refine round_small (F := F) (s := 2) ?_ hq
  rw [show q + 2 = (q + 1) + 1 by omega, Nat.pow_succ]
  split <;> omega

/-- Division of a positive number by a power of two, exact case. -/
theorem div_pow [F.OK] {x y : Flt} {d m e : Nat} (hx : F.Finite x) (hxn : x.neg = false) (hy : F.Finite y) (hyn : y.neg = false)
    (hv : F.val y.mag = 2 ^ d) (h : F.val x.mag * 2 ^ F.eta = m * 2 ^ e * 2 ^ d) (hm : m < 2 ^ F.p)
    (hb : m * 2 ^ e < 2 ^ (F.p + F.emax - 2)) :
    F.Finite (F.div x y) ∧ (F.div x y).neg = false ∧ F.val (F.div x y).mag = m * 2 ^ e := by
  have h0 := mag_ne_of_val hv
  have h1 := div_exact (F := F) hx hy hxn hyn (m := m) (e := e) (by rw [hv]; have := pow_pos' d; omega) (by rw [hv]; exact h) hm hb
  have hn : (F.div x y).neg = false := by rw [div_fin hx hy h0, hxn, hyn]; rfl
  refine ⟨h1.1, hn, ?_⟩
  have h2 := toInt_natAbs (F := F) (F.div x y)
  rw [h1.2] at h2
  rw [← h2, Int.natAbs_mul, Int.natAbs_pow]; rfl

theorem round_zero [F.OK] {n s : Nat} (h : 2 * n ≤ 2 ^ s) : F.roundMag n s = 0 := by
  have ⟨hp, _⟩ := F.facts
  have hk : F.rk n s = 0 := by
    unfold rk
    by_cases h0 : n = 0
    · subst h0; simp
    · have := Nat.log2_self_le h0
      have h1 : 2 ^ Nat.log2 n < 2 ^ s := by omega
      have := (Nat.pow_lt_pow_iff_right (a := 2) (by omega)).1 h1
      omega
  rw [roundMag_def, hk]
  have hr : rne n (s + 0) = 0 := by
    rw [Nat.add_zero]
    have hp := pow_pos' s
    have hlt : n < 2 ^ s := by omega
    unfold rne
    dsimp only
    rw [Nat.div_eq_of_lt hlt, Nat.mod_eq_of_lt hlt, if_neg (by omega)]
  rw [hr]; simp

/-- The square of `amax / scl` as the routine computes it is what the kernel deposits. -/
theorem sq_div [F.OK] {S x : Flt} {n m : Nat} (hS : F.IsScale S n m) (hx : F.Finite x) (hxn : x.neg = false)
    (hb : F.val x.mag < 2 ^ (F.W + n)) : F.mul (F.div x S) (F.div x S) = F.sq S x := by
  have ⟨hp, hW, hWp, hpW, he, he1, hbi, het, hb3, hb4⟩ := F.facts
  have hnm := hS.nm
  have hXm : F.val x.mag * 2 ^ m < 2 ^ (F.W + 2 * F.eta) := by
    have : F.val x.mag * 2 ^ m < 2 ^ (F.W + n) * 2 ^ m := Nat.mul_lt_mul_of_pos_right hb (pow_pos' _)
    rw [← Nat.pow_add] at this
    rw [show F.W + n + m = F.W + 2 * F.eta by omega] at this
    exact this
  have ht := mul_fin (F := F) hx hS.ifin
  rw [hS.ival, hS.ineg, hxn] at ht
  obtain ⟨mant, ex, hd, hmant, -⟩ := val_decomp (F := F) x.mag
  by_cases hA : 2 ^ (F.p - 1 + F.eta) ≤ F.val x.mag * 2 ^ m
  · have hr := round_norm (F := F) hA (Nat.lt_of_lt_of_le hXm (Nat.pow_le_pow_right (by omega) (by omega)))
    rw [rndZ_exact (by omega) (m := mant) (e := ex + m) (by rw [Int.natAbs_natCast, hd, Nat.pow_add, Nat.mul_assoc]) hmant,
      Int.natAbs_natCast] at hr
    have hex : n ≤ ex + F.eta := by
      by_contra hc
      have h1 : F.val x.mag * 2 ^ m < 2 ^ (F.p + ex + m) := by
        rw [hd, Nat.mul_assoc, ← Nat.pow_add, Nat.add_assoc, Nat.pow_add 2 F.p]
        exact Nat.mul_lt_mul_of_pos_right hmant (pow_pos' _)
      have h2 := Nat.lt_of_le_of_lt hA h1
      have := (Nat.pow_lt_pow_iff_right (a := 2) (by omega)).1 h2
      omega
    have e1 : F.val x.mag * 2 ^ F.eta = mant * 2 ^ (ex + F.eta - n) * 2 ^ n := by
      rw [hd, Nat.mul_assoc, Nat.mul_assoc, ← Nat.pow_add, ← Nat.pow_add]; congr 2; omega
    have e2 : F.val (F.roundMag (F.val x.mag * 2 ^ m) F.eta) = mant * 2 ^ (ex + F.eta - n) := by
      refine Nat.eq_of_mul_eq_mul_right (pow_pos' F.eta) ?_
      rw [hr.2, hd, Nat.mul_assoc, Nat.mul_assoc, ← Nat.pow_add, ← Nat.pow_add]; congr 2; omega
    have hdv := div_pow (F := F) (e := ex + F.eta - n) hx hxn hS.fin hS.neg hS.val e1 hmant (by
      rw [← e2]; exact val_lt hr.1)
    have : F.div x S = F.mul x (F.div F.one S) := by
      refine eq_of_val (F := F) ?_ ?_
      · rw [hdv.2.1, ht]; rfl
      · rw [hdv.2.2, ht, ← e2]
    unfold sq
    rw [this]
  · have h1 := div_small (F := F) (x := x) (y := S) (d := n) (q := F.p - 1) hx hS.fin hS.val (by
      have : F.val x.mag * 2 ^ m < 2 ^ (F.p - 1 + F.eta) := by omega
      have h2 : F.val x.mag * 2 ^ F.eta * 2 ^ m < 2 ^ (F.p - 1 + n) * 2 ^ m := by
        rw [Nat.mul_right_comm, ← Nat.pow_add, show F.p - 1 + n + m = (F.p - 1 + F.eta) + F.eta by omega, Nat.pow_add 2 (F.p - 1 + F.eta)]
        exact Nat.mul_lt_mul_of_pos_right this (pow_pos' _)
      exact Nat.lt_of_mul_lt_mul_right h2) (by omega)
    have h2 := round_small (F := F) (n := F.val x.mag * 2 ^ m) (s := F.eta) (q := F.p - 1) (by omega) (by omega)
    have hz : ∀ q, q ≤ 2 ^ (F.p - 1) → F.roundMag (q * q) F.eta = 0 := by
      intro q hq
      have := Nat.mul_le_mul hq hq
      rw [← Nat.pow_add] at this
      refine round_zero (Nat.le_trans (Nat.mul_le_mul_left 2 this) ?_)
      rw [Nat.mul_comm, ← Nat.pow_succ]
      exact Nat.pow_le_pow_right (by omega) (by omega)
    have htf : F.Finite (F.mul x (F.div F.one S)) := by rw [ht]; exact h2.1
    unfold sq
    dsimp only
    rw [mul_fin h1.1 h1.1, mul_fin htf htf, hz _ h1.2, ht, hz _ h2.2]
    simp

theorem sq_mono [F.OK] {S x y : Flt} {n m : Nat} (hS : F.IsScale S n m) (hx : F.Finite x) (hy : F.Finite y)
    (hby : F.val y.mag < 2 ^ (F.W + n)) (h : x.mag ≤ y.mag) : (F.sq S x).mag ≤ (F.sq S y).mag := by
  have ⟨hp, hW, hWp, hpW, he, he1, hbi, het, hb3, hb4⟩ := F.facts
  have hnm := hS.nm
  have hv := val_mono (F := F) h
  have fin : ∀ z, F.Finite z → F.val z.mag ≤ F.val y.mag →
      F.Finite (F.mul z (F.div F.one S)) ∧ (F.sq S z).mag = F.roundMag (F.val (F.roundMag (F.val z.mag * 2 ^ m) F.eta) *
        F.val (F.roundMag (F.val z.mag * 2 ^ m) F.eta)) F.eta := by
    intro z hz hzy
    have ht := mul_fin (F := F) hz hS.ifin
    rw [hS.ival, hS.ineg] at ht
    have hXm : F.val z.mag * 2 ^ m < 2 ^ (F.W + 2 * F.eta) := by
      have : F.val z.mag * 2 ^ m < 2 ^ (F.W + n) * 2 ^ m := Nat.mul_lt_mul_of_pos_right (by omega) (pow_pos' _)
      rw [← Nat.pow_add] at this
      rw [show F.W + n + m = F.W + 2 * F.eta by omega] at this
      exact this
    have hq := round_small (F := F) (n := F.val z.mag * 2 ^ m) (s := F.eta) (q := F.W + F.eta)
      (by rw [show F.W + F.eta + F.eta = F.W + 2 * F.eta by omega]; omega) (by omega)
    have htf : F.Finite (F.mul z (F.div F.one S)) := by rw [ht]; exact hq.1
    refine ⟨htf, ?_⟩
    unfold sq
    dsimp only
    rw [mul_fin htf htf, ht]
  rw [(fin x hx hv).2, (fin y hy (Nat.le_refl _)).2]
  apply roundMag_mono
  have := val_mono (F := F) (roundMag_mono (F := F) (s := F.eta) (Nat.mul_le_mul_right (2 ^ m) hv))
  exact Nat.mul_le_mul this this

/-- A lower bound for the square of a number that is not too far below its scale. -/
theorem sq_ge [F.OK] {S x : Flt} {n m : Nat} (hS : F.IsScale S n m) (hx : F.Finite x) (hb : F.val x.mag < 2 ^ (F.W + n))
    (hl : 2 ^ n < 2 ^ F.W * F.val x.mag) : 2 ^ (F.eta - 2 * F.W) ≤ F.val (F.sq S x).mag := by
  have ⟨hp, hW, hWp, hpW, he, he1, hbi, het, hb3, hb4⟩ := F.facts
  have hnm := hS.nm
  have ht := mul_fin (F := F) hx hS.ifin
  rw [hS.ival, hS.ineg] at ht
  have hXm : F.val x.mag * 2 ^ m < 2 ^ (F.W + 2 * F.eta) := by
    have : F.val x.mag * 2 ^ m < 2 ^ (F.W + n) * 2 ^ m := Nat.mul_lt_mul_of_pos_right (by omega) (pow_pos' _)
    rw [← Nat.pow_add] at this
    rw [show F.W + n + m = F.W + 2 * F.eta by omega] at this
    exact this
  have hq := round_small (F := F) (n := F.val x.mag * 2 ^ m) (s := F.eta) (q := F.W + F.eta)
    (by rw [show F.W + F.eta + F.eta = F.W + 2 * F.eta by omega]; omega) (by omega)
  have htf : F.Finite (F.mul x (F.div F.one S)) := by rw [ht]; exact hq.1
  have hs : (F.sq S x).mag = F.roundMag (F.val (F.roundMag (F.val x.mag * 2 ^ m) F.eta) *
        F.val (F.roundMag (F.val x.mag * 2 ^ m) F.eta)) F.eta := by
    unfold sq
    dsimp only
    rw [mul_fin htf htf, ht]
  have low : ∀ (N c : Nat), c < F.p + F.emax - 2 → 2 ^ (c + F.eta) ≤ N → 2 ^ c ≤ F.val (F.roundMag N F.eta) := by
    intro N c hc h
    have h1 := roundMag_mono (F := F) (s := F.eta) h
    rw [Nat.pow_add, roundMag_shift] at h1
    have h2 := roundMag_exact (F := F) (m := 1) (e := c) (Nat.one_lt_two_pow (by omega))
      (by rw [Nat.one_mul]; exact Nat.pow_lt_pow_right (by omega) hc)
    rw [Nat.one_mul] at h2
    have h3 := val_mono (F := F) h1
    omega
  have hq2 : 2 ^ (F.eta - F.W) ≤ F.val (F.roundMag (F.val x.mag * 2 ^ m) F.eta) := by
    refine low _ _ (by omega) ?_
    have h1 : 2 ^ n * 2 ^ m ≤ 2 ^ F.W * (F.val x.mag * 2 ^ m) := by
      rw [← Nat.mul_assoc]; exact Nat.mul_le_mul_right _ (Nat.le_of_lt hl)
    rw [← Nat.pow_add, hnm, show 2 * F.eta = F.W + (F.eta - F.W + F.eta) by omega, Nat.pow_add 2 F.W] at h1
    exact Nat.le_of_mul_le_mul_left h1 (pow_pos' _)
  rw [hs]
  refine low _ _ (by omega) ?_
  have := Nat.mul_le_mul hq2 hq2
  rw [← Nat.pow_add] at this
  rw [show F.eta - 2 * F.W + F.eta = F.eta - F.W + (F.eta - F.W) by omega]
  exact this

/-! ### the factor -/

/-- The factor by which the primaries are divided: `2^(2 W t)` or infinity. -/
theorem factor [F.OK] {S S' : Flt} {n m n' m' t : Nat} (hS : F.IsScale S n m) (hS' : F.IsScale S' n' m') (ht : n' = n + F.W * t) :
    let r := F.mul (F.div S' S) (F.div S' S)
    (F.Finite r ∧ r.neg = false ∧ F.val r.mag = 2 ^ (F.eta + F.W * (2 * t))) ∨ (r = F.inf false ∧ F.maxExp ≤ F.W * (2 * t)) := by
  have ⟨hp, hW, hWp, hpW, he, he1, hbi, het, hb3, hb4⟩ := F.facts
  intro r
  have hW2 : F.W * (2 * t) = F.W * t + F.W * t := by ring
  by_cases h1 : F.W * t < F.maxExp
  · have hd := div_pow (F := F) (m := 1) (e := F.eta + F.W * t) hS'.fin hS'.neg hS.fin hS.neg hS.val
      (by rw [hS'.val, ht, Nat.one_mul, ← Nat.pow_add, ← Nat.pow_add]; congr 1; omega) (Nat.one_lt_two_pow (by omega))
      (by rw [Nat.one_mul]; exact Nat.pow_lt_pow_right (by omega) (by omega))
    rw [Nat.one_mul] at hd
    have hm := mul_fin (F := F) hd.1 hd.1
    rw [hd.2.2, ← Nat.pow_add, show F.eta + F.W * t + (F.eta + F.W * t) = F.eta + F.W * (2 * t) + F.eta by omega,
      Nat.pow_add, roundMag_shift] at hm
    by_cases h2 : F.W * (2 * t) < F.maxExp
    · left
      have hr := roundMag_exact (F := F) (m := 1) (e := F.eta + F.W * (2 * t)) (Nat.one_lt_two_pow (by omega))
        (by rw [Nat.one_mul]; exact Nat.pow_lt_pow_right (by omega) (by omega))
      rw [Nat.one_mul] at hr
      show F.Finite (F.mul _ _) ∧ (F.mul _ _).neg = false ∧ F.val (F.mul _ _).mag = _
      rw [hm]
      exact ⟨hr.1, by simp, hr.2⟩
    · right
      refine ⟨?_, by omega⟩
      show F.mul _ _ = _
      rw [hm]
      have : F.roundMag (2 ^ (F.eta + F.W * (2 * t))) 0 = F.infMag := by
        have := roundMag_overflow (F := F) (n := ((2 ^ (F.eta + F.W * (2 * t)) : Nat) : Int)) (by
          rw [rndZ_exact (by omega) (m := 1) (e := F.eta + F.W * (2 * t)) (by rw [Int.natAbs_natCast, Nat.one_mul]) (Nat.one_lt_two_pow (by omega)),
            Int.natAbs_natCast]
          exact Nat.pow_le_pow_right (by omega) (by omega))
        rw [Int.natAbs_natCast] at this
        exact this
      rw [this]
      simp [inf]
  · right
    refine ⟨?_, by omega⟩
    have hd : F.div S' S = F.inf false := by
      rw [div_fin hS'.fin hS.fin (mag_ne_of_val hS.val), hS'.neg, hS.neg, hS.val, hS'.val]
      have e : 2 * (2 ^ n' * 2 ^ F.eta) / 2 ^ n = 2 ^ (F.eta + F.W * t + 1) ∧ 2 * (2 ^ n' * 2 ^ F.eta) % 2 ^ n = 0 := by
        have e2 : 2 * (2 ^ n' * 2 ^ F.eta) = 2 ^ (F.eta + F.W * t + 1) * 2 ^ n := by
          rw [← Nat.pow_add, Nat.mul_comm 2, ← Nat.pow_succ, ← Nat.pow_add]; congr 1; omega
        rw [e2]
        exact ⟨Nat.mul_div_cancel _ (pow_pos' _), Nat.mul_mod_left _ _⟩
      rw [e.1, e.2, if_pos rfl, Nat.add_zero, show 2 * 2 ^ (F.eta + F.W * t + 1) = 2 ^ (F.eta + F.W * t) * 2 ^ 2 by
        rw [Nat.mul_comm, ← Nat.pow_succ, ← Nat.pow_add], roundMag_shift]
      have := roundMag_overflow (F := F) (n := ((2 ^ (F.eta + F.W * t) : Nat) : Int)) (by
        rw [rndZ_exact (by omega) (m := 1) (e := F.eta + F.W * t) (by rw [Int.natAbs_natCast, Nat.one_mul]) (Nat.one_lt_two_pow (by omega)),
          Int.natAbs_natCast]
        exact Nat.pow_le_pow_right (by omega) (by omega))
      rw [Int.natAbs_natCast] at this
      rw [this]
      simp [inf]
    show F.mul _ _ = _
    rw [hd]
    have hi : 0 < F.infMag := by unfold infMag; exact Nat.mul_pos (by omega) (pow_pos' _)
    unfold mul inf isNaN isInf
    simp
    omega

/-- Dividing a primary by the factor moves it by `2 t` bins. -/
theorem div_pri [F.OK] {r : Flt} {t j : Nat} {b : Int}
    (hr : (F.Finite r ∧ r.neg = false ∧ F.val r.mag = 2 ^ (F.eta + F.W * (2 * t))) ∨ (r = F.inf false ∧ F.maxExp ≤ F.W * (2 * t)))
    (hw : F.Win b) (hj : 1 ≤ j) :
    (j + 2 * t ≤ F.maxIndex → F.W * (2 * t) < F.maxExp → F.div (F.mkPri j b) r = F.mkPri (j + 2 * t) b) ∧
    (j ≤ F.maxIndex → F.ssqJ < j + 2 * t → F.Finite (F.div (F.mkPri j b) r) ∧
      F.val (F.div (F.mkPri j b) r).mag < 2 ^ (F.p + F.uexp (F.ssqJ + 1))) := by
  have ⟨hp, hW, hWp, hpW, he, he1, hbi, het, hb3, hb4⟩ := F.facts
  have ⟨s1, s2, s3, s4, s5, s6, s7, s8⟩ := F.ssq_facts
  have ⟨w1, w2⟩ := win_mant (F := F) hw
  have hf := mkPri_finite (F := F) (j := j) hw
  have ht := mkPri_toInt (F := F) (j := j) hw
  rw [sexp_pos hj] at ht
  obtain ⟨M, hM⟩ : ∃ M : Nat, (3 * 2 ^ (F.p - 2) + b : Int) = M := ⟨(3 * 2 ^ (F.p - 2) + b).toNat, by
    have := ipow_pos (F.p - 1); omega⟩
  rw [hM] at ht w1 w2
  have hMp : M < 2 ^ F.p := by exact_mod_cast w2
  have hv : F.val (F.mkPri j b).mag = M * 2 ^ F.uexp j := by
    rw [← toInt_natAbs, ht, Int.natAbs_mul, Int.natAbs_pow]; rfl
  have part1 : j + 2 * t ≤ F.maxIndex → F.W * (2 * t) < F.maxExp → F.div (F.mkPri j b) r = F.mkPri (j + 2 * t) b := by
    intro h1 h2
    rcases hr with ⟨r1, r2, r3⟩ | ⟨r1, r2⟩
    · have hu1 := uexp_lin (F := F) (j := j) (by omega)
      have hu2 := uexp_lin (F := F) (j := j + 2 * t) h1
      rw [Nat.mul_add] at hu2
      have hs2 := sexp_le (F := F) (j + 2 * t)
      rw [sexp_pos (by omega)] at hs2
      have hd := div_pow (F := F) (m := M) (e := F.uexp (j + 2 * t)) hf rfl r1 r2 r3
        (by rw [hv, Nat.mul_assoc, Nat.mul_assoc, ← Nat.pow_add, ← Nat.pow_add]; congr 2; omega) hMp
        (by
          have : M * 2 ^ F.uexp (j + 2 * t) < 2 ^ F.p * 2 ^ F.uexp (j + 2 * t) := Nat.mul_lt_mul_of_pos_right hMp (pow_pos' _)
          rw [← Nat.pow_add] at this
          exact Nat.lt_of_lt_of_le this (Nat.pow_le_pow_right (by omega) (by omega)))
      refine eq_of_val (F := F) (hd.2.1.trans rfl) ?_
      rw [hd.2.2]
      have ht2 := mkPri_toInt (F := F) (j := j + 2 * t) hw
      rw [sexp_pos (by omega), hM] at ht2
      rw [← toInt_natAbs (F := F) (F.mkPri (j + 2 * t) b), ht2, Int.natAbs_mul, Int.natAbs_pow]; rfl
    · omega
  constructor
  · exact part1
  · intro hj2 h1
    have hu1 := uexp_lin (F := F) (j := j) hj2
    have hu2 := uexp_lin (F := F) (j := F.ssqJ + 1) (by omega)
    rcases hr with ⟨r1, r2, r3⟩ | ⟨r1, r2⟩
    · by_cases hex : j + 2 * t = F.ssqJ + 1
      · have hlt := val_lt r1
        rw [r3] at hlt
        have hlt2 := (Nat.pow_lt_pow_iff_right (a := 2) (by omega)).1 hlt
        rw [part1 (by omega) (by omega)]
        refine ⟨mkPri_finite hw, ?_⟩
        have ht2 := mkPri_toInt (F := F) (j := j + 2 * t) hw
        rw [sexp_pos (by omega), hM] at ht2
        rw [← toInt_natAbs (F := F) (F.mkPri (j + 2 * t) b), ht2, Int.natAbs_mul, Int.natAbs_pow, hex, Nat.pow_add]
        exact Nat.mul_lt_mul_of_pos_right hMp (pow_pos' _)
      have hle : F.W * (F.ssqJ + 2) ≤ F.W * (j + 2 * t) := Nat.mul_le_mul_left _ (by omega)
      rw [Nat.mul_add F.W j] at hle
      have e3 : F.W * (F.ssqJ + 2) = F.W * (F.ssqJ + 1) + F.W := by ring
      have hd := div_small (F := F) (d := F.eta + F.W * (2 * t)) (q := F.p + F.uexp (F.ssqJ + 1) - F.W) hf r1 r3 (by
        rw [hv, Nat.mul_assoc, ← Nat.pow_add]
        have : M * 2 ^ (F.uexp j + F.eta) < 2 ^ F.p * 2 ^ (F.uexp j + F.eta) := Nat.mul_lt_mul_of_pos_right hMp (pow_pos' _)
        rw [← Nat.pow_add] at this
        exact Nat.lt_of_lt_of_le this (Nat.pow_le_pow_right (by omega) (by omega)))
        (by have := sexp_le (F := F) (F.ssqJ + 1); rw [sexp_pos (by omega)] at this; omega)
      exact ⟨hd.1, Nat.lt_of_le_of_lt hd.2 (Nat.pow_lt_pow_right (by omega) (by omega))⟩
    · have hz : (F.div (F.mkPri j b) r).mag = 0 := by
        have ⟨x1, x2⟩ := finite_iff.1 hf
        rw [r1]
        unfold div
        have y1 : F.isNaN (F.inf false) = false := by simp [isNaN, inf]
        have y2 : F.isInf (F.inf false) = true := by simp [isInf, inf]
        simp [x1, x2, y1, y2]
      refine ⟨?_, ?_⟩
      · show _ < F.infMag
        rw [hz]; exact Nat.mul_pos (by omega) (pow_pos' _)
      · rw [hz, (val_eq_zero (F := F)).2 rfl]; exact pow_pos' _

end Fmt
end Repro
