import Verif.PropsSum
/-!
# Rounding to nearest: monotone, exact on representable numbers, error of half a unit
-/

namespace Repro
namespace Fmt
variable {F : Fmt}

theorem rne_err (n t : Nat) : 2 * (rne n t * 2 ^ t) ≤ 2 * n + 2 ^ t ∧ 2 * n ≤ 2 * (rne n t * 2 ^ t) + 2 ^ t := by
  unfold rne
  have hpos := pow_pos' t
  have hdm := Nat.div_add_mod n (2 ^ t)
  have hlt := Nat.mod_lt n hpos
  have hc : 2 ^ t * (n / 2 ^ t) = n / 2 ^ t * 2 ^ t := Nat.mul_comm _ _
  dsimp only
  split
  · rename_i h
    rw [Nat.add_mul, Nat.one_mul]
    rcases h with h | h <;> omega
  · rename_i h
    simp only [not_or, not_and] at h
    omega

theorem rne_mono {m n t : Nat} (h : m ≤ n) : rne m t ≤ rne n t := by
  have hpos := pow_pos' t
  have hq : m / 2 ^ t ≤ n / 2 ^ t := Nat.div_le_div_right h
  have hm := Nat.div_add_mod m (2 ^ t)
  have hn := Nat.div_add_mod n (2 ^ t)
  unfold rne
  dsimp only
  by_cases he : m / 2 ^ t = n / 2 ^ t
  · rw [he] at hm ⊢
    have hr : m % 2 ^ t ≤ n % 2 ^ t := by omega
    split
    · rename_i h1
      rw [if_pos]
      rcases h1 with h1 | h1
      · left; omega
      · by_cases h3 : 2 * (n % 2 ^ t) = 2 ^ t
        · right; exact ⟨h3, h1.2⟩
        · left; omega
    · split <;> omega
  · split <;> split <;> omega

theorem rne_zero_shift (n : Nat) : rne n 0 = n := by
  have := rne_exact n 0; simpa using this

theorem rne_le_pow {n t b : Nat} (h : n ≤ 2 ^ (b + t)) : rne n t ≤ 2 ^ b := by
  have := rne_mono (t := t) h
  rwa [Nat.pow_add, rne_exact] at this

theorem rne_ge_pow {n t b : Nat} (h : 2 ^ (b + t) ≤ n) : 2 ^ b ≤ rne n t := by
  have := rne_mono (t := t) h
  rwa [Nat.pow_add, rne_exact] at this

/-- The exponent offset chosen by `roundMag`. -/
def rk (F : Fmt) (n s : Nat) : Nat := Nat.log2 n - (s + (F.p - 1))

theorem roundMag_def (n s : Nat) : F.roundMag n s = min (F.rk n s * 2 ^ (F.p - 1) + rne n (s + F.rk n s)) F.infMag := rfl

theorem rk_bounds [F.OK] (n s : Nat) : n < 2 ^ (F.p + (s + F.rk n s)) ∧ (0 < F.rk n s → 2 ^ (F.p - 1 + (s + F.rk n s)) ≤ n) := by
  have ⟨hp, _⟩ := F.facts
  unfold rk
  by_cases h0 : n = 0
  · subst h0; refine ⟨pow_pos' _, ?_⟩; simp
  · have h1 := Nat.log2_self_le h0
    have h2 : n < 2 ^ (Nat.log2 n + 1) := Nat.lt_log2_self
    refine ⟨Nat.lt_of_lt_of_le h2 (Nat.pow_le_pow_right (by omega) (by omega)), ?_⟩
    intro hk
    exact Nat.le_trans (Nat.pow_le_pow_right (by omega) (by omega)) h1

theorem rk_rne [F.OK] (n s : Nat) : rne n (s + F.rk n s) ≤ 2 ^ F.p ∧ (0 < F.rk n s → 2 ^ (F.p - 1) ≤ rne n (s + F.rk n s)) := by
  have h := rk_bounds (F := F) n s
  exact ⟨rne_le_pow (Nat.le_of_lt h.1), fun hk => rne_ge_pow (h.2 hk)⟩

/-- Value of the rounded number when it does not overflow. -/
theorem round_val [F.OK] (n s : Nat) :
    F.val (F.rk n s * 2 ^ (F.p - 1) + rne n (s + F.rk n s)) = rne n (s + F.rk n s) * 2 ^ F.rk n s := by
  have h := rk_rne (F := F) n s
  have hp2 := two_p (F := F)
  have hpp := pow_pos' (F.p - 1)
  by_cases he : rne n (s + F.rk n s) = 2 ^ F.p
  · rw [he]
    have e : F.rk n s * 2 ^ (F.p - 1) + 2 ^ F.p = (F.rk n s + 1) * 2 ^ (F.p - 1) + 2 ^ (F.p - 1) := by rw [hp2]; ring
    rw [e, val_mk (Nat.le_refl _) (by omega), hp2, Nat.pow_succ]; ring
  · by_cases hk : 0 < F.rk n s
    · exact val_mk (h.2 hk) (by omega)
    · have hk0 : F.rk n s = 0 := by omega
      rw [hk0] at he h ⊢
      rw [Nat.zero_mul, Nat.zero_add, Nat.pow_zero, Nat.mul_one]
      exact val_small (by omega)

theorem rk_mono {m n s : Nat} (h : m ≤ n) : F.rk m s ≤ F.rk n s := by
  unfold rk
  have : Nat.log2 m ≤ Nat.log2 n := by
    by_cases h0 : m = 0
    · subst h0; simp
    · rw [Nat.le_log2 (by omega)]
      exact Nat.le_trans (Nat.log2_self_le h0) h
  omega

/-- Rounding is monotone. -/
theorem roundMag_mono [F.OK] {m n s : Nat} (h : m ≤ n) : F.roundMag m s ≤ F.roundMag n s := by
  rw [roundMag_def, roundMag_def]
  have hk := rk_mono (F := F) (s := s) h
  have key : F.rk m s * 2 ^ (F.p - 1) + rne m (s + F.rk m s) ≤ F.rk n s * 2 ^ (F.p - 1) + rne n (s + F.rk n s) := by
    by_cases he : F.rk m s = F.rk n s
    · rw [he]; have := rne_mono (t := s + F.rk n s) h; omega
    · have h1 := (rk_rne (F := F) m s).1
      have h2 := (rk_rne (F := F) n s).2 (by omega)
      have hp2 := two_p (F := F)
      have h3 : (F.rk m s + 1) * 2 ^ (F.p - 1) ≤ F.rk n s * 2 ^ (F.p - 1) := Nat.mul_le_mul_right _ (by omega)
      rw [Nat.add_mul, Nat.one_mul] at h3
      omega
  omega

/-- Rounding stays below representable bounds. -/
theorem round_le [F.OK] {n m e : Nat} (hm : m < 2 ^ F.p) (hb : m * 2 ^ e < 2 ^ (F.p + F.emax - 2)) (h : n ≤ m * 2 ^ e) :
    F.roundMag n 0 < F.infMag ∧ F.val (F.roundMag n 0) ≤ m * 2 ^ e := by
  have h1 := roundMag_exact (F := F) hm hb
  have h2 := roundMag_mono (F := F) (s := 0) h
  exact ⟨by omega, by have := val_mono (F := F) h2; omega⟩

theorem round_ge [F.OK] {n m e : Nat} (hm : m < 2 ^ F.p) (hb : m * 2 ^ e < 2 ^ (F.p + F.emax - 2)) (h : m * 2 ^ e ≤ n) :
    m * 2 ^ e ≤ F.val (F.roundMag n 0) := by
  have h1 := roundMag_exact (F := F) hm hb
  have h2 := roundMag_mono (F := F) (s := 0) h
  have := val_mono (F := F) h2; omega

/-- Adding finite numbers whose exact sum is within a representable bound stays within it. -/
theorem add_le [F.OK] {x y : Flt} (hx : F.Finite x) (hy : F.Finite y) {m e : Nat} (hm : m < 2 ^ F.p)
    (hb : m * 2 ^ e < 2 ^ (F.p + F.emax - 2)) (h : (F.toInt x + F.toInt y).natAbs ≤ m * 2 ^ e) :
    F.Finite (F.add x y) ∧ (F.toInt (F.add x y)).natAbs ≤ m * 2 ^ e := by
  have hr := round_le (F := F) hm hb h
  rw [add_finite hx hy]
  split
  · refine ⟨?_, ?_⟩
    · show 0 < F.infMag; exact Nat.lt_of_le_of_lt (Nat.zero_le _) emax_big
    · rw [toInt_natAbs]; show F.val 0 ≤ _; rw [val_eq_zero.2 rfl]; exact Nat.zero_le _
  · exact ⟨hr.1, by rw [toInt_natAbs]; exact hr.2⟩

end Fmt
end Repro
