import Verif.Fma
import Verif.PropsInf
import Verif.ConvEq
import Verif.Deposit3
import Verif.ZLemmas
import Verif.KernelLemmas
import Verif.SsqLemmas
/-!
# When a fused multiply-add is the rounded sum of the rounded product
-/

namespace Repro
namespace Fmt
variable {F : Fmt}

/-- A factor that is not finite. -/
theorem fma_special {x y z : Flt} (h : F.isNaN x = true ∨ F.isInf x = true ∨ F.isNaN y = true ∨ F.isInf y = true) : F.fma x y z = F.add z (F.mul x y) := by
  unfold fma
  by_cases h1 : (F.isNaN x || F.isNaN y) = true
  · have : F.mul x y = F.nan := by unfold mul; rw [if_pos h1]
    rw [h1, Bool.true_or, if_pos rfl, this]
    unfold add
    rw [show F.isNaN F.nan = true by unfold isNaN nan; simp, Bool.or_true, if_pos rfl]
  · have h1' : (F.isNaN x || F.isNaN y) = false := by simpa using h1
    have h2 : (F.isInf x || F.isInf y) = true := by
      simp only [Bool.or_eq_true, not_or] at h1
      rcases h with h | h | h | h
      · exact absurd h h1.1
      · rw [h, Bool.true_or]
      · exact absurd h h1.2
      · rw [h, Bool.or_true]
    rw [h1', Bool.false_or, if_pos h2]
    by_cases hz : F.isNaN z = true
    · rw [if_pos hz]
      unfold add
      rw [hz, Bool.true_or, if_pos rfl]
    · rw [if_neg hz]
      have hmul : F.mul x y = if x.mag = 0 ∨ y.mag = 0 then F.nan else ⟨x.neg != y.neg, F.infMag⟩ := by
        unfold mul
        rw [h1', if_pos h2]; rfl
      rw [hmul]
      by_cases h0 : x.mag = 0 ∨ y.mag = 0
      · rw [if_pos h0, if_pos h0]
        unfold add
        rw [show F.isNaN F.nan = true by unfold isNaN nan; simp, Bool.or_true, if_pos rfl]
      · rw [if_neg h0, if_neg h0]

/-- A finite product and an addend that is not finite. -/
theorem fma_acc {x y z : Flt} (hx : F.Finite x) (hy : F.Finite y) (hm : F.Finite (F.mul x y)) (hz : ¬ F.Finite z) : F.fma x y z = F.add z (F.mul x y) := by
  have ⟨x1, x2⟩ := finite_iff.1 hx
  have ⟨y1, y2⟩ := finite_iff.1 hy
  have ⟨m1, m2⟩ := finite_iff.1 hm
  unfold fma add
  rw [x1, x2, y1, y2, m1, m2]
  by_cases hn : F.isNaN z = true
  · simp [hn]
  · have hn' : F.isNaN z = false := by simpa using hn
    have hi : F.isInf z = true := by
      by_contra hc
      exact hz (finite_iff.2 ⟨hn', by simpa using hc⟩)
    simp [hn', hi]

/-- An exact product. -/
theorem fma_exact [F.OK] {x y : Flt} (z : Flt) (hx : F.Finite x) (hy : F.Finite y) (hm : F.Finite (F.mul x y)) (he : F.toInt x * F.toInt y = F.toInt (F.mul x y) * 2 ^ F.eta) :
    F.fma x y z = F.add z (F.mul x y) := by
  by_cases hz : F.Finite z
  · have ⟨x1, x2⟩ := finite_iff.1 hx
    have ⟨y1, y2⟩ := finite_iff.1 hy
    have ⟨z1, z2⟩ := finite_iff.1 hz
    rw [add_finite hz hm]
    unfold fma
    rw [x1, x2, y1, y2, z1, z2]
    simp only [Bool.or_self, Bool.false_eq_true, if_false]
    have hsn : (F.mul x y).neg = (x.neg != y.neg) := by rw [mul_fin hx hy]
    have hs : F.toInt x * F.toInt y + F.toInt z * 2 ^ F.eta = (F.toInt z + F.toInt (F.mul x y)) * 2 ^ F.eta := by rw [he]; ring
    rw [hs]
    have hp : (0 : Int) < 2 ^ F.eta := ipow_pos _
    by_cases h0 : F.toInt z + F.toInt (F.mul x y) = 0
    · rw [h0, Int.zero_mul, if_pos rfl, if_pos rfl, hsn, Bool.and_comm]
    · rw [if_neg (by intro hc; rcases Int.mul_eq_zero.1 hc with h | h; exacts [h0 h, by omega]), if_neg h0]
      have e1 : ((F.toInt z + F.toInt (F.mul x y)) * 2 ^ F.eta).natAbs = (F.toInt z + F.toInt (F.mul x y)).natAbs * 2 ^ F.eta := by
        rw [Int.natAbs_mul, Int.natAbs_pow]; rfl
      rw [e1, roundMag_shift]
      congr 1
      by_cases hl : F.toInt z + F.toInt (F.mul x y) < 0
      · rw [decide_eq_true hl, decide_eq_true (Int.mul_neg_of_neg_of_pos hl hp)]
      · rw [decide_eq_false hl, decide_eq_false]
        have : 0 ≤ (F.toInt z + F.toInt (F.mul x y)) * 2 ^ F.eta := Int.mul_nonneg (by omega) (by omega)
        omega
  · exact fma_acc hx hy hm hz

theorem mac_eq {c : Bool} {x y z : Flt} (h : F.fma x y z = F.add z (F.mul x y)) : F.mac c x y z = F.add z (F.mul x y) := by
  unfold mac; cases c <;> simp [h]

theorem special_of {x : Flt} (h : ¬ F.Finite x) : F.isNaN x = true ∨ F.isInf x = true := by
  by_contra hc
  simp only [not_or, Bool.not_eq_true] at hc
  exact h (finite_iff.2 hc)

theorem sub_finite_args [F.OK] {x y : Flt} (h : F.Finite (F.sub x y)) : F.Finite x ∧ F.Finite y := by
  unfold sub at h
  have h1 : F.kind (F.add x (fneg y)) = .fin := kind_fin.2 h
  constructor
  · by_contra hc
    have := kind_add_left (F := F) (y := fneg y) (mt kind_fin.1 hc)
    rw [h1] at this
    exact Kind.add_ne_fin (mt kind_fin.1 hc) this.symm
  · by_contra hc
    have hc' : F.kind (fneg y) ≠ .fin := mt kind_fin.1 (by exact hc)
    have := kind_add_right (F := F) (x := x) hc'
    rw [h1, Kind.add_comm] at this
    exact Kind.add_ne_fin hc' this.symm

theorem add_finite_args [F.OK] {x y : Flt} (h : F.Finite (F.add x y)) : F.Finite x ∧ F.Finite y := by
  have h1 : F.kind (F.add x y) = .fin := kind_fin.2 h
  constructor
  · by_contra hc
    have := kind_add_left (F := F) (y := y) (mt kind_fin.1 hc)
    rw [h1] at this
    exact Kind.add_ne_fin (mt kind_fin.1 hc) this.symm
  · by_contra hc
    have := kind_add_right (F := F) (x := x) (mt kind_fin.1 hc)
    rw [h1, Kind.add_comm] at this
    exact Kind.add_ne_fin (mt kind_fin.1 hc) this.symm

/-- Scaling a finite number up by a power of two is exact unless it overflows. -/
theorem mul_up_exact [F.OK] {x : Flt} (hx : F.Finite x) {d : Nat} (hd : F.eta + d < F.p + F.emax - 2) (hb : F.val x.mag * 2 ^ d < 2 ^ (F.p + F.emax - 2)) :
    F.Finite (F.mul x (F.pow2 (d : Int))) ∧ F.toInt (F.mul x (F.pow2 (d : Int))) = F.toInt x * 2 ^ d := by
  obtain ⟨m, e, hv, hm, _⟩ := val_decomp (F := F) x.mag
  refine mul_up hx hd (m := m) (e := e + d) ?_ hm ?_
  · rw [Int.natAbs_mul, toInt_natAbs, hv, Int.natAbs_pow, Nat.pow_add, ← Nat.mul_assoc]; rfl
  · rw [Nat.pow_add, ← Nat.mul_assoc, ← hv]; exact hb

theorem fma_up [F.OK] {x : Flt} (z : Flt) (hx : F.Finite x) {d : Nat} (hd : F.eta + d < F.p + F.emax - 2) (hb : F.val x.mag * 2 ^ d < 2 ^ (F.p + F.emax - 2)) :
    F.fma x (F.pow2 (d : Int)) z = F.add z (F.mul x (F.pow2 (d : Int))) := by
  have h1 := mul_up_exact hx hd hb
  have h2 := pow2_ok (F := F) (e := (d : Int)) (n := F.eta + d) (by omega) hd
  refine fma_exact z hx h2.1 h1.1 ?_
  rw [h1.2, h2.2.1, mul_assoc, ← pow_add, Nat.add_comm]

/-- The remainder of a deposit into bin 0 is small: expanding it again cannot overflow. -/
theorem remainder_small [F.OK] {x m : Flt} (h : F.Finite (F.sub m (F.add m (or1 (F.mul x F.compression))))) :
    F.val (F.sub m (F.add m (or1 (F.mul x F.compression)))).mag ≤ 3 * 2 ^ (F.p + F.emax - 2 - F.p + F.W - 2) := by
  have ⟨hp, hW, hWp, hpW, he, he1, hb, het, h3p, _⟩ := F.facts
  obtain ⟨hm, hs⟩ := sub_finite_args h
  obtain ⟨_, ht⟩ := add_finite_args hs
  have hmx : F.Finite (F.mul x F.compression) := by
    unfold Finite at ht ⊢
    unfold or1 at ht; dsimp only at ht
    have : (F.mul x F.compression).mag ≤ (F.mul x F.compression).mag ||| 1 := Nat.left_le_or
    omega
  have hcomp := pow2_ok (F := F) (e := -((F.p : Int) - F.W + 1)) (n := F.eta - (F.p - F.W + 1)) (by omega) (by omega)
  have hx : F.Finite x := by
    by_contra hc
    have h1 : F.kind (F.mul x F.compression) ≠ .fin := by
      rcases special_of hc with hn | hi
      · rw [kind_nan.2 (mul_nan_left hn)]; simp
      · intro hk
        have hf := kind_fin.1 hk
        have ⟨c1, c2⟩ := finite_iff.1 hcomp.1
        unfold compression Fmt.mul at hf
        rw [hi, c1, c2] at hf
        unfold Finite at hf
        revert hf
        split
        · unfold nan; dsimp only; have := pow_pos' (F.p - 2); omega
        · simp only [Bool.or_false, if_true]
          split
          · unfold nan; dsimp only; have := pow_pos' (F.p - 2); omega
          · dsimp only; omega
    exact h1 (kind_fin.2 hmx)
  -- the compressed number
  have hcv : F.val F.compression.mag = 2 ^ (F.eta - (F.p - F.W + 1)) := by
    have := congrArg Int.natAbs hcomp.2.1
    rw [toInt_natAbs, Int.natAbs_pow] at this; exact this
  have hxv := val_lt (F := F) hx
  obtain ⟨E, hE⟩ : ∃ E, E = F.p + F.emax - 2 := ⟨_, rfl⟩
  rw [← hE] at hxv ⊢
  have h5 := roundMag_exact (F := F) (m := 5) (e := E - (F.p - F.W + 1) - 2) (Nat.lt_of_lt_of_le (by decide : 5 < 2 ^ 3) (Nat.pow_le_pow_right (by omega) (by omega)))
    (mul_pow_lt (x := 3) (by decide) (by omega))
  have h4 := roundMag_exact (F := F) (m := 1) (e := E - (F.p - F.W + 1)) (Nat.one_lt_two_pow (by omega)) (mul_pow_lt (x := 1) (by decide) (by omega))
  have hr : (F.mul x F.compression).mag ≤ F.roundMag (1 * 2 ^ (E - (F.p - F.W + 1))) 0 := by
    have hcc : F.compression = F.pow2 (-((F.p : Int) - F.W + 1)) := rfl
    rw [hcc] at hcv ⊢
    rw [mul_fin hx hcomp.1]
    dsimp only
    rw [← roundMag_shift (s := F.eta)]
    apply roundMag_mono
    rw [hcv, Nat.one_mul]
    have : 2 ^ (E - (F.p - F.W + 1)) * 2 ^ F.eta = 2 ^ E * 2 ^ (F.eta - (F.p - F.W + 1)) := by
      rw [← Nat.pow_add, ← Nat.pow_add]; congr 1; omega
    rw [this]
    exact Nat.mul_le_mul_right _ (Nat.le_of_lt hxv)
  have hlt : F.roundMag (1 * 2 ^ (E - (F.p - F.W + 1))) 0 < F.roundMag (5 * 2 ^ (E - (F.p - F.W + 1) - 2)) 0 := by
    by_contra hc
    have := val_mono (F := F) (Nat.le_of_not_lt hc)
    rw [h4.2, h5.2] at this
    have e : 2 ^ (E - (F.p - F.W + 1)) = 4 * 2 ^ (E - (F.p - F.W + 1) - 2) := by
      rw [show (4 : Nat) = 2 ^ 2 by rfl, ← Nat.pow_add]; congr 1; omega
    rw [e] at this
    have := pow_pos' (E - (F.p - F.W + 1) - 2)
    omega
  have htv : (F.toInt (or1 (F.mul x F.compression))).natAbs ≤ 5 * 2 ^ (E - (F.p - F.W + 1) - 2) := by
    rw [toInt_natAbs, ← h5.2]
    apply val_mono
    unfold or1; dsimp only
    have : (F.mul x F.compression).mag ||| 1 ≤ (F.mul x F.compression).mag + 1 := by
      have h1 : ((F.mul x F.compression).mag ||| 1) / 2 = (F.mul x F.compression).mag / 2 := by
        have := Nat.or_div_two_pow (a := (F.mul x F.compression).mag) (b := 1) (n := 1)
        simpa using this
      omega
    omega
  generalize ht' : or1 (F.mul x F.compression) = t at *
  -- the sum
  have hsb : (rndZ F.p (F.toInt m + F.toInt t)).natAbs < 2 ^ E := by
    by_contra hc
    have ho := roundMag_overflow (F := F) (n := F.toInt m + F.toInt t) (by rw [← hE]; exact Nat.le_of_not_lt hc)
    rw [add_finite hm ht] at hs
    split at hs
    · rename_i h0; rw [h0, rndZ_zero] at hc; exact hc (by simp)
    · unfold Finite at hs; dsimp only at hs; omega
  have hn : (F.toInt m + F.toInt t).natAbs ≤ 2 ^ (F.p + (E - F.p)) := by
    rw [show F.p + (E - F.p) = E by omega]
    by_contra hc
    have := rndZ_ge (F := F) (n := F.toInt m + F.toInt t) (e := E) (by omega)
    omega
  have herr := rndZ_err (F := F) hn
  have hsv : F.toInt (F.add m t) = rndZ F.p (F.toInt m + F.toInt t) := by
    rw [add_finite hm ht]
    split
    · rename_i h0; rw [h0, rndZ_zero]; unfold toInt; simp [val]
    · have h1 := roundMag_rndZ (F := F) (n := F.toInt m + F.toInt t) (by rw [← hE]; exact hsb)
      have hsg := rndZ_sign (F := F) (F.toInt m + F.toInt t)
      generalize F.toInt m + F.toInt t = n at *
      show (if decide (n < 0) = true then -(F.val (F.roundMag n.natAbs 0) : Int) else (F.val (F.roundMag n.natAbs 0) : Int)) = _
      rw [h1.2]
      by_cases hd : n < 0
      · rw [decide_eq_true hd, if_pos rfl]; have := hsg.1; have := hsg.2; omega
      · rw [decide_eq_false hd, if_neg (by decide)]; have := hsg.1; have := hsg.2; omega
  have e2 : 2 ^ (E - F.p) = 2 * 2 ^ (E - F.p - 1) := by rw [← Nat.pow_succ']; congr 1; omega
  have e3 : E - (F.p - F.W + 1) - 2 = E - F.p + F.W - 3 := by omega
  have e4 : 2 ^ (E - F.p + F.W - 2) = 2 * 2 ^ (E - F.p + F.W - 3) := by rw [← Nat.pow_succ']; congr 1; omega
  have e5 : 2 ^ (E - F.p - 1) ≤ 2 ^ (E - F.p + F.W - 3) := Nat.pow_le_pow_right (by omega) (by omega)
  rw [e3] at htv
  have hdiff : (F.toInt m + F.toInt (fneg (F.add m t))).natAbs ≤ 3 * 2 ^ (E - F.p + F.W - 2) := by
    rw [toInt_fneg, hsv]
    omega
  have := add_le (F := F) (x := m) (y := fneg (F.add m t)) hm (by exact hs) (m := 3) (e := E - F.p + F.W - 2)
    (Nat.lt_of_lt_of_le (by decide : 3 < 2 ^ 2) (Nat.pow_le_pow_right (by omega) (by omega))) (mul_pow_lt (x := 2) (by decide) (by omega)) hdiff
  have h9 := this.2
  rw [toInt_natAbs] at h9
  exact h9

/-- The additions of the expanded remainder may be contracted. -/
theorem mac_half [F.OK] (c : Bool) (x m z : Flt) :
    F.mac c (F.sub m (F.add m (or1 (F.mul x F.compression)))) F.halfExpansion z
      = F.add z (F.mul (F.sub m (F.add m (or1 (F.mul x F.compression)))) F.halfExpansion) := by
  have ⟨hp, hW, hWp, hpW, he, he1, hb, het, h3p, _⟩ := F.facts
  apply mac_eq
  by_cases h : F.Finite (F.sub m (F.add m (or1 (F.mul x F.compression))))
  · have h1 := remainder_small h
    rw [halfExpansion_eq]
    refine fma_up z h (by omega) ?_
    refine Nat.lt_of_le_of_lt (Nat.mul_le_mul_right _ h1) ?_
    rw [Nat.mul_assoc, ← Nat.pow_add]
    exact mul_pow_lt (x := 2) (by decide) (by omega)
  · apply fma_special
    rcases special_of h with h | h
    · left; exact h
    · right; left; exact h

theorem mac_one [F.OK] (c : Bool) (q z : Flt) : F.mac c q F.one z = F.add z (F.mul q F.one) := by
  have ⟨hp, hW, hWp, hpW, he, he1, hb, het, h3p, _⟩ := F.facts
  apply mac_eq
  by_cases h : F.Finite q
  · have := fma_up z h (d := 0) (by omega) (by have := val_lt (F := F) h; omega)
    exact this
  · apply fma_special
    rcases special_of h with h | h
    · left; exact h
    · right; left; exact h

theorem mac_zero [F.OK] (c : Bool) (q z : Flt) : F.mac c q zero z = F.add z (F.mul q zero) := by
  apply mac_eq
  by_cases h : F.Finite q
  · have h1 := mul_zero' h
    refine fma_exact z h zero_finite h1.1 ?_
    rw [h1.2]; unfold toInt zero; simp [val]
  · apply fma_special
    rcases special_of h with h | h
    · left; exact h
    · right; left; exact h

end Fmt
end Repro
