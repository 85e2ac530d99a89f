import Verif.Float
import Mathlib.Tactic.Ring
import Mathlib.Tactic.Linarith
import Mathlib.Tactic.NormNum
import Mathlib.Tactic.Zify
import Mathlib.Algebra.Order.Group.Int
import Mathlib.Algebra.Order.Ring.Int
/-!
# Lemmas about the float model (rounding, exactness, representability)
-/

namespace Repro
namespace Fmt
variable {F : Fmt}

/-! ### powers of two -/

theorem two_pow_split {a b : Nat} (h : a ≤ b) : 2 ^ b = 2 ^ a * 2 ^ (b - a) := by
  rw [← Nat.pow_add]; congr 1; omega

theorem pow_pos' (a : Nat) : 0 < 2 ^ a := Nat.two_pow_pos a

/-- numeric facts about the two formats -/
theorem facts (F : Fmt) [h : F.OK] :
    24 ≤ F.p ∧ 13 ≤ F.W ∧ F.W + 11 ≤ F.p ∧ F.p ≤ 2 * F.W ∧ 255 ≤ F.emax ∧ F.emax + 1 = 2 * F.maxExp ∧
    F.bias + 2 = F.maxExp ∧ F.eta = F.bias + F.p - 1 ∧ 3 * F.p + F.W  ≤ F.bias ∧
    F.p + F.W + 2 < F.maxExp := by
  rcases h.isDoubleOrFloat with rfl | rfl <;> decide

theorem infMag_eq (F : Fmt) : F.infMag = F.emax * 2 ^ (F.p - 1) := rfl

/-! ### decoding -/

theorem val_small [F.OK] {m : Nat} (h : m < 2 ^ F.p) : F.val m = m := by
  have ⟨hp, _⟩ := F.facts
  unfold val
  split
  · rfl
  · next h1 =>
    have e : 2 ^ F.p = 2 * 2 ^ (F.p - 1) := by
      rw [← Nat.pow_succ']; congr 1; omega
    have h2 : m / 2 ^ (F.p - 1) = 1 := by
      apply Nat.div_eq_of_lt_le <;> omega
    have h3 := Nat.div_add_mod m (2 ^ (F.p - 1))
    rw [h2] at h3 ⊢
    simp; omega

theorem val_mk [F.OK] {u m : Nat} (h1 : 2 ^ (F.p - 1) ≤ m) (h2 : m < 2 ^ F.p) :
    F.val (u * 2 ^ (F.p - 1) + m) = m * 2 ^ u := by
  have ⟨hp, _⟩ := F.facts
  have e : 2 ^ F.p = 2 * 2 ^ (F.p - 1) := by
    rw [← Nat.pow_succ']; congr 1; omega
  have hpos := pow_pos' (F.p - 1)
  unfold val
  rw [if_neg (by omega)]
  have hd : (u * 2 ^ (F.p - 1) + m) / 2 ^ (F.p - 1) = u + 1 := by
    rw [Nat.add_comm, Nat.add_mul_div_right _ _ hpos]
    have : m / 2 ^ (F.p - 1) = 1 := by apply Nat.div_eq_of_lt_le <;> omega
    omega
  have hm : (u * 2 ^ (F.p - 1) + m) % 2 ^ (F.p - 1) = m - 2 ^ (F.p - 1) := by
    have := Nat.div_add_mod (u * 2 ^ (F.p - 1) + m) (2 ^ (F.p - 1))
    rw [hd] at this
    have e2 : 2 ^ (F.p - 1) * (u + 1) = u * 2 ^ (F.p - 1) + 2 ^ (F.p - 1) := by ring
    omega
  rw [hd, hm]
  have : 2 ^ (F.p - 1) + (m - 2 ^ (F.p - 1)) = m := by omega
  rw [this]; simp

/-- Every magnitude is `mant * 2^e` with `mant < 2^p`; parity and the effect of setting the last bit. -/
theorem val_decomp [F.OK] (m : Nat) : ∃ mant e, F.val m = mant * 2 ^ e ∧ mant < 2 ^ F.p ∧
    (e = 0 ∨ 2 ^ (F.p - 1) ≤ mant) ∧ mant % 2 = m % 2 ∧
    F.val (m ||| 1) = (mant + 1 - mant % 2) * 2 ^ e ∧ e = m / 2 ^ (F.p - 1) - 1 := by
  have ⟨hp, _⟩ := F.facts
  have e : 2 ^ F.p = 2 * 2 ^ (F.p - 1) := by
    rw [← Nat.pow_succ']; congr 1; omega
  have e' : 2 ^ (F.p - 1) = 2 * 2 ^ (F.p - 2) := by
    rw [← Nat.pow_succ']; congr 1; omega
  have hpos := pow_pos' (F.p - 2)
  have hor : m ||| 1 = m + 1 - m % 2 := by
    have h1 : (m ||| 1) / 2 = m / 2 := by
      have := Nat.or_div_two_pow (a := m) (b := 1) (n := 1)
      simpa using this
    have h2 : (m ||| 1) % 2 = 1 := by
      have h4 : m % 2 = 0 ∨ m % 2 = 1 := by omega
      rcases h4 with h4 | h4 <;> simp
    omega
  by_cases hs : m < 2 ^ F.p
  · refine ⟨m, 0, ?_, hs, Or.inl rfl, rfl, ?_, ?_⟩
    · rw [val_small hs]; simp
    · rw [hor, val_small (by omega)]; simp
    · have : m / 2 ^ (F.p - 1) < 2 := by
        rw [Nat.div_lt_iff_lt_mul (by omega)]; omega
      omega
  · -- normal number with exponent at least 1
    obtain ⟨q, hq⟩ : ∃ q, q = m / 2 ^ (F.p - 1) := ⟨_, rfl⟩
    obtain ⟨r, hr⟩ : ∃ r, r = m % 2 ^ (F.p - 1) := ⟨_, rfl⟩
    have hdm := Nat.div_add_mod m (2 ^ (F.p - 1))
    have hrlt : r < 2 ^ (F.p - 1) := hr ▸ Nat.mod_lt _ (by omega)
    have hq2 : 2 ≤ q := by
      rw [hq, Nat.le_div_iff_mul_le (by omega)]; omega
    rw [← hq, ← hr] at hdm
    have hmform : m = (q - 1) * 2 ^ (F.p - 1) + (2 ^ (F.p - 1) + r) := by
      have : 2 ^ (F.p - 1) * q = (q - 1) * 2 ^ (F.p - 1) + 2 ^ (F.p - 1) := by
        obtain ⟨t, rfl⟩ : ∃ t, q = t + 1 := ⟨q - 1, by omega⟩
        simp; ring
      omega
    have hpar : (2 ^ (F.p - 1) + r) % 2 = m % 2 := by
      have : m = 2 * (2 ^ (F.p - 2) * q) + r := by
        rw [← hdm, e']; ring
      omega
    refine ⟨2 ^ (F.p - 1) + r, q - 1, ?_, by omega, Or.inr (by omega), hpar, ?_, by rw [← hq]⟩
    · conv_lhs => rw [hmform]
      exact val_mk (by omega) (by omega)
    · have hmo : m ||| 1 = (q - 1) * 2 ^ (F.p - 1) + (2 ^ (F.p - 1) + r + 1 - (2 ^ (F.p - 1) + r) % 2) := by
        omega
      rw [hmo]
      refine val_mk (by omega) (by omega)

/-! ### rounding -/

theorem log2_eq {n k : Nat} (h1 : 2 ^ k ≤ n) (h2 : n < 2 ^ (k + 1)) : Nat.log2 n = k := by
  have hn : n ≠ 0 := by have := pow_pos' k; omega
  rw [Nat.log2_eq_iff hn]; exact ⟨h1, h2⟩

theorem rne_exact (m t : Nat) : rne (m * 2 ^ t) t = m := by
  unfold rne
  have hpos := pow_pos' t
  simp [Nat.mul_div_cancel _ hpos]
  intro h; omega

/-- nearest integer when not a tie -/
theorem rne_near {n t m : Nat} (h1 : 2 * n < (2 * m + 1) * 2 ^ t) (h2 : 2 * m * 2 ^ t < 2 * n + 2 ^ t) :
    rne n t = m := by
  unfold rne
  have hpos := pow_pos' t
  have hdm := Nat.div_add_mod n (2 ^ t)
  have hlt := Nat.mod_lt n hpos
  generalize n / 2 ^ t = q at *
  generalize n % 2 ^ t = r at *
  generalize 2 ^ t = T at *
  dsimp only
  have hcase : m = q ∨ m = q + 1 := by
    have h3 : m < q + 2 := by
      by_contra hc
      have : (q + 2) * T ≤ m * T := Nat.mul_le_mul_right _ (by omega)
      nlinarith
    have h4 : q < m + 1 := by
      by_contra hc
      have : (m + 1) * T ≤ q * T := Nat.mul_le_mul_right _ (by omega)
      nlinarith
    omega
  rcases hcase with rfl | rfl
  · rw [if_neg]
    have : (2 * m + 1) * T = 2 * (T * m) + T := by ring
    omega
  · rw [if_pos]
    left
    have : 2 * (q + 1) * T = 2 * (T * q) + 2 * T := by ring
    omega

theorem roundMag_normal [F.OK] {n u m : Nat} (h1 : 2 ^ (F.p - 1 + u) ≤ n) (h2 : n < 2 ^ (F.p + u))
    (h3 : rne n u = m) : F.roundMag n 0 = min (u * 2 ^ (F.p - 1) + m) F.infMag := by
  have ⟨hp, _⟩ := F.facts
  have hl : Nat.log2 n = F.p - 1 + u := log2_eq h1 (by
    have : F.p - 1 + u + 1 = F.p + u := by omega
    rwa [this])
  unfold roundMag
  have : Nat.log2 n - (F.p - 1) = u := by omega
  simp only [Nat.zero_add, this, h3]

theorem roundMag_small [F.OK] {n : Nat} (h : n < 2 ^ F.p) : F.roundMag n 0 = min n F.infMag := by
  have ⟨hp, _⟩ := F.facts
  have hl : Nat.log2 n < F.p := by
    by_cases hn : n = 0
    · subst hn; simp; omega
    · rw [Nat.log2_lt hn]; exact h
  unfold roundMag
  have : Nat.log2 n - (F.p - 1) = 0 := by omega
  simp only [Nat.zero_add, this, Nat.zero_mul]
  have : rne n 0 = n := by simpa using rne_exact n 0
  rw [this]

theorem emax_big [F.OK] : 2 ^ F.p < F.infMag := by
  have ⟨hp, _, _, _, he, _⟩ := F.facts
  rw [infMag_eq]
  have e : 2 ^ F.p = 2 * 2 ^ (F.p - 1) := by
    rw [← Nat.pow_succ']; congr 1; omega
  have := pow_pos' (F.p - 1)
  nlinarith

/-- Representable integers are rounded to themselves. -/
theorem roundMag_exact [F.OK] {m e : Nat} (hm : m < 2 ^ F.p) (hb : m * 2 ^ e < 2 ^ (F.p + F.emax - 2)) :
    F.roundMag (m * 2 ^ e) 0 < F.infMag ∧ F.val (F.roundMag (m * 2 ^ e) 0) = m * 2 ^ e := by
  have ⟨hp, _, _, _, he, _⟩ := F.facts
  obtain ⟨n, hn⟩ : ∃ n, n = m * 2 ^ e := ⟨_, rfl⟩
  rw [← hn] at hb ⊢
  by_cases hs : n < 2 ^ F.p
  · rw [roundMag_small hs]
    have := emax_big (F := F)
    rw [Nat.min_eq_left (by omega)]
    exact ⟨by omega, val_small hs⟩
  · have hn0 : n ≠ 0 := by have := pow_pos' F.p; omega
    obtain ⟨L, hL⟩ : ∃ L, L = Nat.log2 n := ⟨_, rfl⟩
    have hL1 : 2 ^ L ≤ n := hL ▸ Nat.log2_self_le hn0
    have hL2 : n < 2 ^ (L + 1) := hL ▸ Nat.lt_log2_self
    have hpL : F.p ≤ L := by
      by_contra hc
      have : 2 ^ (L + 1) ≤ 2 ^ F.p := Nat.pow_le_pow_right (by omega) (by omega)
      omega
    have hLe : L < F.p + e := by
      have : n < 2 ^ (F.p + e) := by
        rw [hn, Nat.pow_add]; exact Nat.mul_lt_mul_of_pos_right hm (pow_pos' e)
      exact (Nat.pow_lt_pow_iff_right (by omega)).1 (Nat.lt_of_le_of_lt hL1 this)
    obtain ⟨u, hu⟩ : ∃ u, L = F.p - 1 + u := ⟨L - (F.p - 1), by omega⟩
    obtain ⟨m', hm'⟩ : ∃ m', n = m' * 2 ^ u := by
      refine ⟨m * 2 ^ (e - u), ?_⟩
      rw [hn, Nat.mul_assoc, ← Nat.pow_add]; congr 2; omega
    have hue : F.p + u = L + 1 := by omega
    have hlo : 2 ^ (F.p - 1) ≤ m' := by
      rw [hu, hm', Nat.pow_add] at hL1
      exact Nat.le_of_mul_le_mul_right hL1 (pow_pos' u)
    have hhi : m' < 2 ^ F.p := by
      rw [← hue, hm', Nat.pow_add] at hL2
      exact Nat.lt_of_mul_lt_mul_right hL2
    have hr : F.roundMag n 0 = min (u * 2 ^ (F.p - 1) + m') F.infMag := by
      apply roundMag_normal
      · rw [← hu]; exact hL1
      · rw [hue]; exact hL2
      · rw [hm']; exact rne_exact _ _
    have hub : u + 2 ≤ F.emax - 2 + 2 := by
      have : L < F.p + F.emax - 2 :=
        (Nat.pow_lt_pow_iff_right (a := 2) (by omega)).1 (Nat.lt_of_le_of_lt hL1 hb)
      omega
    have e2 : 2 ^ F.p = 2 * 2 ^ (F.p - 1) := by
      rw [← Nat.pow_succ']; congr 1; omega
    have hinf : u * 2 ^ (F.p - 1) + m' < F.infMag := by
      rw [infMag_eq]
      have : (u + 2) * 2 ^ (F.p - 1) ≤ F.emax * 2 ^ (F.p - 1) := Nat.mul_le_mul_right _ (by omega)
      have : (u + 2) * 2 ^ (F.p - 1) = u * 2 ^ (F.p - 1) + 2 * 2 ^ (F.p - 1) := by ring
      omega
    rw [hr, Nat.min_eq_left (Nat.le_of_lt hinf)]
    exact ⟨hinf, by rw [val_mk hlo hhi, ← hm']⟩

theorem val_lt [F.OK] {m : Nat} (h : m < F.infMag) : F.val m < 2 ^ (F.p + F.emax - 2) := by
  have ⟨hp, _, _, _, he, _⟩ := F.facts
  obtain ⟨mant, e, h1, h2, h3, h4, h5, h6⟩ := val_decomp (F := F) m
  rw [h1]
  have hq : m / 2 ^ (F.p - 1) < F.emax := by
    rw [Nat.div_lt_iff_lt_mul (pow_pos' _)]; exact h
  have : mant * 2 ^ e < 2 ^ F.p * 2 ^ e := Nat.mul_lt_mul_of_pos_right h2 (pow_pos' e)
  rw [← Nat.pow_add] at this
  have h7 : 2 ^ (F.p + e) ≤ 2 ^ (F.p + F.emax - 2) := Nat.pow_le_pow_right (by omega) (by omega)
  omega

theorem val_eq_zero [F.OK] {m : Nat} : F.val m = 0 ↔ m = 0 := by
  constructor
  · intro h
    unfold val at h
    split at h
    · exact h
    · have h1 := pow_pos' (F.p - 1)
      have h2 := pow_pos' (m / 2 ^ (F.p - 1) - 1)
      have := Nat.mul_pos (n := 2 ^ (F.p - 1) + m % 2 ^ (F.p - 1)) (by omega) h2
      omega
  · rintro rfl
    exact val_small (pow_pos' _)

/-! ### exact sums -/

theorem finite_iff {x : Flt} : F.Finite x ↔ F.isNaN x = false ∧ F.isInf x = false := by
  unfold Finite isNaN isInf
  simp; omega

theorem toInt_natAbs (x : Flt) : (F.toInt x).natAbs = F.val x.mag := by
  unfold toInt; split <;> simp

theorem add_finite {x y : Flt} (hx : F.Finite x) (hy : F.Finite y) :
    F.add x y = if F.toInt x + F.toInt y = 0 then ⟨x.neg && y.neg, 0⟩
      else ⟨decide (F.toInt x + F.toInt y < 0), F.roundMag (F.toInt x + F.toInt y).natAbs 0⟩ := by
  have ⟨a, b⟩ := finite_iff.1 hx
  have ⟨c, d⟩ := finite_iff.1 hy
  unfold add
  simp [a, b, c, d]

/-- An exactly representable sum is computed exactly. -/
theorem add_exact [F.OK] {x y : Flt} (hx : F.Finite x) (hy : F.Finite y) {m e : Nat}
    (hs : (F.toInt x + F.toInt y).natAbs = m * 2 ^ e) (hm : m < 2 ^ F.p)
    (hb : m * 2 ^ e < 2 ^ (F.p + F.emax - 2)) :
    F.Finite (F.add x y) ∧ F.toInt (F.add x y) = F.toInt x + F.toInt y := by
  rw [add_finite hx hy]
  split
  · next h =>
    refine ⟨?_, ?_⟩
    · show 0 < F.infMag
      have := emax_big (F := F); omega
    · rw [h]; unfold toInt
      have : F.val 0 = 0 := val_eq_zero.2 rfl
      simp [this]
  · next h =>
    rw [hs]
    have ⟨h1, h2⟩ := roundMag_exact (F := F) hm hb
    refine ⟨h1, ?_⟩
    unfold toInt at *
    simp only [h2]
    rw [← hs]
    generalize (if x.neg = true then -(F.val x.mag : Int) else (F.val x.mag : Int)) +
      (if y.neg = true then -(F.val y.mag : Int) else (F.val y.mag : Int)) = s at *
    by_cases hneg : s < 0
    · simp only [hneg, decide_true, if_true]; omega
    · simp only [hneg, decide_false, Bool.false_eq_true, if_false]; omega

theorem toInt_fneg (x : Flt) : F.toInt (fneg x) = - F.toInt x := by
  unfold toInt fneg; cases x.neg <;> simp

theorem finite_fneg {x : Flt} : F.Finite (fneg x) ↔ F.Finite x := Iff.rfl

theorem sub_exact [F.OK] {x y : Flt} (hx : F.Finite x) (hy : F.Finite y) {m e : Nat}
    (hs : (F.toInt x - F.toInt y).natAbs = m * 2 ^ e) (hm : m < 2 ^ F.p)
    (hb : m * 2 ^ e < 2 ^ (F.p + F.emax - 2)) :
    F.Finite (F.sub x y) ∧ F.toInt (F.sub x y) = F.toInt x - F.toInt y := by
  have h := add_exact (F := F) hx (y := fneg y) hy (m := m) (e := e)
    (by rw [toInt_fneg, ← hs]; rfl) hm hb
  rw [toInt_fneg] at h
  exact h

/-- `n` no larger than the finite `x` and a multiple of its last place is representable. -/
theorem repr_of_le [F.OK] {x : Flt} (hx : F.Finite x) {n : Int} {mant e : Nat}
    (hv : F.val x.mag = mant * 2 ^ e) (hmant : mant < 2 ^ F.p)
    (hd : (2 ^ e : Int) ∣ n) (hle : n.natAbs ≤ F.val x.mag) :
    ∃ m, n.natAbs = m * 2 ^ e ∧ m < 2 ^ F.p ∧ m * 2 ^ e < 2 ^ (F.p + F.emax - 2) := by
  have hd' : 2 ^ e ∣ n.natAbs := by
    have := Int.natAbs_dvd_natAbs.2 hd
    have h2 : Int.natAbs (2 ^ e : Int) = 2 ^ e := by
      have : (2 ^ e : Int) = ((2 ^ e : Nat) : Int) := by push_cast; rfl
      rw [this]; rfl
    rwa [h2] at this
  obtain ⟨m, hm⟩ := hd'
  have hm' : n.natAbs = m * 2 ^ e := by rw [hm, Nat.mul_comm]
  refine ⟨m, hm', ?_, ?_⟩
  · rw [hm', hv] at hle
    have := Nat.le_of_mul_le_mul_right hle (pow_pos' e)
    omega
  · rw [← hm']
    exact Nat.lt_of_le_of_lt hle (val_lt hx)

end Fmt
end Repro
