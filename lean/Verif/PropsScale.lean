import Verif.Scale
import Verif.ConvLemmas
/-!
# C30 (scales) and C34 (unit in the first place)
-/

namespace Repro
namespace Fmt
variable {F : Fmt}

/-- Multiple of `W` nearest to `a` towards zero. -/
theorem tdiv_bounds (a : Int) {w : Int} (hw : 0 < w) :
    (0 ≤ a → w * a.tdiv w ≤ a ∧ a < w * a.tdiv w + w) ∧ (a ≤ 0 → a ≤ w * a.tdiv w ∧ w * a.tdiv w < a + w) := by
  have h := Int.mul_tdiv_add_tmod a w
  have h4 := Int.natAbs_tmod a w
  have h5 : (a.tmod w).natAbs < w.natAbs := by rw [h4]; exact Nat.mod_lt _ (by omega)
  have h2 : -w < a.tmod w := by omega
  have h1 : a.tmod w < w := by omega
  constructor
  · intro ha
    have h3 := Int.tmod_nonneg w ha
    omega
  · intro ha
    have h3 := Int.tmod_nonneg w (show 0 ≤ -a by omega)
    rw [Int.neg_tmod] at h3
    omega

theorem tdiv_mono {a b w : Int} (hw : 0 < w) (h : a ≤ b) : a.tdiv w ≤ b.tdiv w := Int.tdiv_le_tdiv hw h

/-- The integer `z` such that the scale is `2^(W z)`. -/
def scaleZ (F : Fmt) (e : Nat) : Int := ((if e < F.W then F.W else e : Nat) - (F.bias : Int) - 1).tdiv F.W

theorem dscale_eq (x : Flt) : F.dscale x = F.pow2 (F.W * F.scaleZ (F.expo x)) := by
  unfold dscale scaleZ
  dsimp only
  have h := Int.mul_tdiv_add_tmod (((if F.expo x < F.W then F.W else F.expo x : Nat) : Int) - (F.bias : Int) - 1) F.W
  congr 1
  push_cast at h ⊢
  omega

/-- exponents of the scales: bounds -/
theorem scaleZ_bounds [F.OK] {e : Nat} (he : e ≤ F.emax) :
    -(F.bias : Int) + F.W ≤ F.W * F.scaleZ e ∧ F.W * F.scaleZ e + 9 ≤ F.bias := by
  have ⟨hp, hW, hWp, _, hem, hem1, hbi, het, hb3, _⟩ := F.facts
  have hm : F.scaleZ e ≤ F.scaleZ F.emax := tdiv_mono (by omega) (by split <;> split <;> omega)
  have hl : F.scaleZ 0 ≤ F.scaleZ e := tdiv_mono (by omega) (by split <;> split <;> omega)
  have h1 := Int.mul_le_mul_of_nonneg_left hm (show (0:Int) ≤ F.W by omega)
  have h2 := Int.mul_le_mul_of_nonneg_left hl (show (0:Int) ≤ F.W by omega)
  have c : -(F.bias : Int) + F.W ≤ F.W * F.scaleZ 0 ∧ F.W * F.scaleZ F.emax + 9 ≤ F.bias := by
    rcases ‹F.OK›.isDoubleOrFloat with rfl | rfl <;> decide
  omega

theorem expo_le [F.OK] {x : Flt} (hx : F.Finite x) : F.expo x < F.emax := by
  unfold expo Finite infMag at *
  exact Nat.div_lt_of_lt_mul (by rw [Nat.mul_comm]; exact hx)

/-- Range of a magnitude by its exponent field. -/
theorem val_expo [F.OK] (x : Flt) : F.val x.mag < 2 ^ (F.p - 1 + F.expo x) ∧ (1 ≤ F.expo x → 2 ^ (F.p - 2 + F.expo x) ≤ F.val x.mag) := by
  have ⟨hp, _⟩ := F.facts
  unfold expo val
  have hpos := pow_pos' (F.p - 1)
  split
  · next h =>
    rw [Nat.div_eq_of_lt h]
    exact ⟨h, by omega⟩
  · next h =>
    have h1 : 1 ≤ x.mag / 2 ^ (F.p - 1) := (Nat.le_div_iff_mul_le hpos).2 (by omega)
    generalize hq : x.mag / 2 ^ (F.p - 1) = q at h1
    have hm := Nat.mod_lt x.mag hpos
    have e1 : 2 ^ (F.p - 1 + q) = 2 * 2 ^ (F.p - 1) * 2 ^ (q - 1) := by
      rw [Nat.mul_comm 2, ← Nat.pow_succ, ← Nat.pow_add]; congr 1; omega
    have e2 : 2 ^ (F.p - 2 + q) = 2 ^ (F.p - 1) * 2 ^ (q - 1) := by
      rw [← Nat.pow_add]; congr 1; omega
    rw [e1, e2]
    exact ⟨Nat.mul_lt_mul_of_pos_right (by omega) (pow_pos' _), fun _ => Nat.mul_le_mul_right _ (by omega)⟩

theorem one_ok [F.OK] : F.Finite F.one ∧ F.val F.one.mag = 2 ^ F.eta ∧ F.one.neg = false := by
  have ⟨hp, hW, hWp, _, hem, hem1, hbi, het, hb3, _⟩ := F.facts
  have h := pow2_ok (F := F) (e := 0) (n := F.eta) (by omega) (by omega)
  refine ⟨h.1, ?_, h.2.2⟩
  have := toInt_natAbs (F := F) F.one
  unfold one at *
  rw [h.2.1, Int.natAbs_pow] at this
  exact this.symm

theorem pow2_val' [F.OK] {e : Int} {n : Nat} (h : (F.eta : Int) + e = n) (hn : n < F.p + F.emax - 2) :
    F.val (F.pow2 e).mag = 2 ^ n := by
  have h := pow2_ok (F := F) h hn
  have := toInt_natAbs (F := F) (F.pow2 e)
  rw [h.2.1, Int.natAbs_pow] at this
  exact this.symm

/-- Bits of a number are determined by sign and value. -/
theorem eq_of_val [F.OK] {x y : Flt} (hn : x.neg = y.neg) (hv : F.val x.mag = F.val y.mag) : x = y := by
  have : x.mag = y.mag := by
    rcases Nat.lt_trichotomy x.mag y.mag with h | h | h
    · have := val_strict (F := F) h; omega
    · exact h
    · have := val_strict (F := F) h; omega
  cases x; cases y; simp_all

/-- Reciprocals of powers of two are exact. -/
theorem recip_pow2 [F.OK] {e : Int} (h1 : (F.eta : Int) + e < F.p + F.emax - 2) (h2 : (F.eta : Int) - e < F.p + F.emax - 2)
    (h3 : 0 ≤ (F.eta : Int) + e) (h4 : 0 ≤ (F.eta : Int) - e) : F.div F.one (F.pow2 e) = F.pow2 (-e) := by
  have ⟨hp, hW, hWp, _, hem, hem1, hbi, het, hb3, _⟩ := F.facts
  obtain ⟨n, hn⟩ := Int.eq_ofNat_of_zero_le h3
  obtain ⟨m, hm⟩ := Int.eq_ofNat_of_zero_le h4
  have ho := one_ok (F := F)
  have hy := pow2_ok (F := F) hn (by omega)
  have hyv := pow2_val' (F := F) hn (by omega)
  have hz := pow2_val' (F := F) (e := -e) (n := m) (by omega) (by omega)
  have hd := div_exact (F := F) ho.1 hy.1 ho.2.2 hy.2.2 (m := 1) (e := m) (by rw [hyv]; have := pow_pos' n; omega)
    (by rw [ho.2.1, hyv, Nat.one_mul, ← Nat.pow_add, ← Nat.pow_add]; congr 1; omega) (Nat.one_lt_two_pow (by omega))
    (by rw [Nat.one_mul]; exact Nat.pow_lt_pow_right (by omega) (by omega))
  have hs : (F.div F.one (F.pow2 e)).neg = false := by
    have ⟨x1, x2⟩ := finite_iff.1 ho.1
    have ⟨y1, y2⟩ := finite_iff.1 hy.1
    have hym : (F.pow2 e).mag ≠ 0 := fun h => by
      have := (val_eq_zero (F := F)).2 h
      rw [hyv] at this
      have := pow_pos' n; omega
    unfold div
    simp [x1, x2, y1, y2, hym, ho.2.2, hy.2.2]
  refine eq_of_val (F := F) (hs.trans rfl) ?_
  rw [hz]
  have := toInt_natAbs (F := F) (F.div F.one (F.pow2 e))
  rw [hd.2] at this
  rw [← this]
  have e2 : ((1 : Nat) : Int) * 2 ^ m = 2 ^ m := by simp
  rw [e2, Int.natAbs_pow]; rfl

/-- **C30.** The scale of a number is a power of two `2^(W z)`; the power and its reciprocal are finite (normal)
numbers, computed exactly; every finite number is less than `2^W` times its scale, and exceeds `2^-W` times its scale
unless its exponent field is below `W` (the numbers below about `2^(W - bias)`, which all share the least scale).
(`hw`: the pattern fits its word; `val x` is `|x|` in units of `2^-eta`, so `n = eta + W z` says the scale is
`2^(W z)`.) -/
theorem C30_scale [F.OK] (x : Flt) (hw : F.expo x ≤ F.emax) : ∃ (z : Int) (n m : Nat),
    (n : Int) = F.eta + F.W * z ∧ (m : Int) = F.eta - F.W * z ∧ F.p ≤ n ∧ F.p ≤ m ∧
    (F.dscale x).neg = false ∧ F.Finite (F.dscale x) ∧ F.val (F.dscale x).mag = 2 ^ n ∧
    (F.div F.one (F.dscale x)).neg = false ∧ F.Finite (F.div F.one (F.dscale x)) ∧
    F.val (F.div F.one (F.dscale x)).mag = 2 ^ m ∧
    (F.Finite x → F.val x.mag < 2 ^ W F * 2 ^ n ∧ (F.W ≤ F.expo x → 2 ^ n < 2 ^ W F * F.val x.mag)) := by
  have ⟨hp, hW, hWp, _, hem, hem1, hbi, het, hb3, _⟩ := F.facts
  have hb := scaleZ_bounds (F := F) hw
  rw [dscale_eq]
  generalize hE : (F.W : Int) * F.scaleZ (F.expo x) = E at hb
  obtain ⟨n, hn⟩ := Int.eq_ofNat_of_zero_le (show 0 ≤ (F.eta : Int) + E by omega)
  obtain ⟨m, hm⟩ := Int.eq_ofNat_of_zero_le (show 0 ≤ (F.eta : Int) - E by omega)
  have h1 := pow2_ok (F := F) hn (by omega)
  have h2 := pow2_ok (F := F) (e := -E) (n := m) (by omega) (by omega)
  refine ⟨F.scaleZ (F.expo x), n, m, by omega, by omega, by omega, by omega, h1.2.2, h1.1, pow2_val' hn (by omega), ?_⟩
  rw [recip_pow2 (by omega) (by omega) (by omega) (by omega)]
  refine ⟨h2.2.2, h2.1, pow2_val' (n := m) (by omega) (by omega), fun hx => ?_⟩
  have hv := val_expo (F := F) x
  have ht := tdiv_bounds (((if F.expo x < F.W then F.W else F.expo x : Nat) : Int) - (F.bias : Int) - 1) (w := F.W) (by omega)
  unfold scaleZ at hE
  rw [hE] at ht
  rw [← Nat.pow_add]
  constructor
  · refine Nat.lt_of_lt_of_le hv.1 (Nat.pow_le_pow_right (by omega) ?_)
    split at ht <;> omega
  · intro hWx
    have h3 := hv.2 (by omega)
    rw [if_neg (by omega)] at ht
    have h4 : 2 ^ F.W * 2 ^ (F.p - 2 + F.expo x) ≤ 2 ^ F.W * F.val x.mag := Nat.mul_le_mul_left _ h3
    refine Nat.lt_of_lt_of_le ?_ h4
    rw [← Nat.pow_add]
    exact Nat.pow_lt_pow_right (by omega) (by omega)

theorem scaleZ_mono [F.OK] {d e : Nat} (h : d ≤ e) : F.scaleZ d ≤ F.scaleZ e := by
  have ⟨hp, hW, _⟩ := F.facts
  exact tdiv_mono (by omega) (by split <;> split <;> omega)

/-- **C30** (order): the scale does not look at the sign and is monotone in the magnitude. -/
theorem C30_monotone [F.OK] {x y : Flt} (h : x.mag ≤ y.mag) (hw : F.expo y ≤ F.emax) :
    F.dscale ⟨!x.neg, x.mag⟩ = F.dscale x ∧ F.val (F.dscale x).mag ≤ F.val (F.dscale y).mag ∧
    F.lt (F.dscale y) (F.dscale x) = false := by
  have ⟨hp, hW, hWp, _, hem, hem1, hbi, het, hb3, _⟩ := F.facts
  have he : F.expo x ≤ F.expo y := Nat.div_le_div_right h
  obtain ⟨z, n, m, hn, -, -, -, hs, -, hv, -⟩ := C30_scale (F := F) x (by omega)
  obtain ⟨z', n', m', hn', -, -, -, hs', -, hv', -⟩ := C30_scale (F := F) y hw
  have hle : F.val (F.dscale x).mag ≤ F.val (F.dscale y).mag := by
    have hb := scaleZ_bounds (F := F) (e := F.expo x) (by omega)
    have hb' := scaleZ_bounds (F := F) hw
    have hz := Int.mul_le_mul_of_nonneg_left (scaleZ_mono (F := F) he) (show (0:Int) ≤ F.W by omega)
    rw [dscale_eq, dscale_eq]
    generalize (F.W : Int) * F.scaleZ (F.expo x) = E at *
    generalize (F.W : Int) * F.scaleZ (F.expo y) = E' at *
    rw [pow2_val' (n := (F.eta + E).toNat) (by omega) (by omega), pow2_val' (n := (F.eta + E').toNat) (by omega) (by omega)]
    exact Nat.pow_le_pow_right (by omega) (by omega)
  refine ⟨rfl, hle, ?_⟩
  have : (F.dscale x).mag ≤ (F.dscale y).mag := by
    by_contra hc
    have := val_strict (F := F) (show (F.dscale y).mag < (F.dscale x).mag by omega)
    omega
  unfold lt key
  rw [hs, hs']
  simp only [Bool.false_eq_true, if_false]
  rw [decide_eq_false (by omega)]; simp

/-- The documented lower bound `Y * 2^(-DBL_MANT_DIG - DBWIDTH - 1) < X` (`src/binned/dscale.c:15`) does not extend to
the least subnormal: there `Y * 2^(-p - W - 1)` exceeds `X` (units of `2^-eta`). -/
theorem C30_doc_violated : ∃ x : Flt, f64.Finite x ∧ x.mag ≠ 0 ∧
    2 ^ (f64.p + f64.W + 1) * f64.val x.mag < f64.val (f64.dscale x).mag :=
  ⟨⟨false, 1⟩, by decide +kernel⟩

/-- Examples: the scale of 3 is 1, of 2^40 is 2^40, of 2^-1 is 1, of 2^-41 is 2^-40. -/
example : f64.dscale (f64.ofInt 3) = f64.one ∧ f64.dscale (f64.pow2 40) = f64.pow2 40 ∧
    f64.dscale (f64.pow2 (-1)) = f64.one ∧ f64.dscale (f64.pow2 (-41)) = f64.pow2 (-40) ∧
    f64.expo (f64.ofInt 3) ≤ f64.emax := by decide +kernel

/-! ### C34 -/

/-- `y` is the largest power of two not above `|x|` (in units of the least subnormal). -/
def IsUfp (F : Fmt) (x y : Flt) : Prop :=
  F.Finite y ∧ y.neg = false ∧ ∃ e : Nat, F.val y.mag = 2 ^ e ∧ 2 ^ e ≤ F.val x.mag ∧ F.val x.mag < 2 ^ (e + 1)

theorem ufpBits_ok [F.OK] {x : Flt} (hx : F.Finite x) (hn : 1 ≤ F.expo x) : F.IsUfp x (F.ufpBits x) ∧
    F.val (F.ufpBits x).mag = 2 ^ (F.p - 2 + F.expo x) := by
  have ⟨hp, _⟩ := F.facts
  have hv := val_expo (F := F) x
  have he := expo_le hx
  have hpos := pow_pos' (F.p - 1)
  have hval : F.val (F.ufpBits x).mag = 2 ^ (F.p - 2 + F.expo x) := by
    have h2 : (F.ufpBits x).mag = (F.expo x - 1) * 2 ^ (F.p - 1) + 2 ^ (F.p - 1) := by
      unfold ufpBits; dsimp only
      conv_lhs => rw [show F.expo x = F.expo x - 1 + 1 by omega, Nat.add_mul, Nat.one_mul]
    rw [h2, val_mk (Nat.le_refl _) (Nat.pow_lt_pow_right (by omega) (by omega)), ← Nat.pow_add]
    congr 1; omega
  refine ⟨⟨?_, rfl, _, hval, hv.2 hn, ?_⟩, hval⟩
  · unfold Finite ufpBits infMag
    exact Nat.mul_lt_mul_of_pos_right he hpos
  · have e1 : F.p - 2 + F.expo x + 1 = F.p - 1 + F.expo x := by omega
    rw [e1]; exact hv.1

end Fmt
open Fmt

/-- **C34** (single precision): `binned_ufpf` is right for every normal float. -/
theorem C34_ufpf {x : Flt} (hx : f32.Finite x) (hn : 1 ≤ f32.expo x) : f32.IsUfp x (ufpf x) := (ufpBits_ok hx hn).1

/-- **C34** (double precision), in the range of `float`: `binned_ufp` is right for the normal doubles with
`2^-149 <= |x| < 2^128`. (Missing: the other normal doubles, for which it is wrong, see the next two theorems.) -/
theorem C34_ufp_partial {x : Flt} (hx : f64.Finite x) (hl : 2 ^ (1074 - 149) ≤ f64.val x.mag) (hu : f64.val x.mag < 2 ^ (1074 + 128)) :
    f64.IsUfp x (ufp x) := by
  have hp : f64.p = 53 := rfl
  have hv := val_expo (F := f64) x
  have h1 : 1 ≤ f64.expo x := by
    by_contra hc
    have e0 : f64.expo x = 0 := by omega
    have h2 := hv.1
    rw [e0] at h2
    have := Nat.pow_lt_pow_iff_right (a := 2) (by omega) |>.1 (Nat.lt_of_le_of_lt hl h2)
    omega
  have hb := ufpBits_ok hx h1
  obtain ⟨⟨hf, hs, e, he, hl2, hu2⟩, hval⟩ := hb
  have ee : e = 51 + f64.expo x := by
    have := Nat.pow_right_injective (Nat.le_refl 2) (he.symm.trans hval)
    omega
  have r1 : 925 ≤ e := by
    have := Nat.pow_lt_pow_iff_right (a := 2) (by omega) |>.1 (Nat.lt_of_le_of_lt hl hu2)
    omega
  have r2 : e < 1202 := Nat.pow_lt_pow_iff_right (a := 2) (by omega) |>.1 (Nat.lt_of_le_of_lt hl2 hu)
  have ⟨n1, n2⟩ := finite_iff.1 hf
  have e1 : (f64.ufpBits x).mag = (f64.ufpBits x).mag := rfl
  have hnar : narrow (f64.ufpBits x) = ⟨false, f32.roundMag (1 * 2 ^ (e - 925)) 0⟩ := by
    unfold narrow
    rw [n1, n2]
    simp only [Bool.false_eq_true, if_false]
    rw [hs, he]
    have : 2 ^ e = (1 * 2 ^ (e - 925)) * 2 ^ (f64.eta - f32.eta) := by
      have h925 : f64.eta - f32.eta = 925 := rfl
      rw [h925, Nat.one_mul, ← Nat.pow_add, show e - 925 + 925 = e by omega]
    rw [this, roundMag_shift]
  have hre := roundMag_exact (F := f32) (m := 1) (e := e - 925) (by decide)
    (by rw [Nat.one_mul]; exact Nat.pow_lt_pow_right (by omega) (show _ < 24 + 255 - 2 by omega))
  have ⟨w1, w2⟩ := finite_iff (F := f32) (x := ⟨false, f32.roundMag (1 * 2 ^ (e - 925)) 0⟩) |>.1 hre.1
  have hre2 := roundMag_exact (F := f64) (m := 1) (e := e) (by decide)
    (by rw [Nat.one_mul]; exact Nat.pow_lt_pow_right (by omega) (show _ < 53 + 2047 - 2 by omega))
  have hw : ufp x = ⟨false, f64.roundMag (1 * 2 ^ e) 0⟩ := by
    unfold ufp
    rw [hnar]
    unfold widen
    rw [w1, w2]
    simp only [Bool.false_eq_true, if_false]
    rw [hre.2]
    have h925 : f64.eta - f32.eta = 925 := rfl
    rw [h925, Nat.one_mul, Nat.one_mul, ← Nat.pow_add, show e - 925 + 925 = e by omega]
  rw [hw]
  exact ⟨hre2.1, rfl, e, by rw [hre2.2, Nat.one_mul], hl2, hu2⟩

/-- The double precision function is wrong for large and for small normal numbers: the helper `UFP`
(`src/common/common.h:28`) returns `float`. -/
theorem C34_ufp_violated : f64.Finite (f64.pow2 128) ∧ 1 ≤ f64.expo (f64.pow2 128) ∧ ¬ f64.IsUfp (f64.pow2 128) (ufp (f64.pow2 128)) ∧
    f64.Finite (f64.pow2 (-150)) ∧ 1 ≤ f64.expo (f64.pow2 (-150)) ∧ ¬ f64.IsUfp (f64.pow2 (-150)) (ufp (f64.pow2 (-150))) := by
  refine ⟨by decide +kernel, by decide +kernel, ?_, by decide +kernel, by decide +kernel, ?_⟩
  · intro h; exact absurd h.1 (by decide +kernel)
  · rintro ⟨-, -, e, he, -⟩
    have h0 : f64.val (ufp (f64.pow2 (-150))).mag = 0 := by decide +kernel
    rw [h0] at he
    have := pow_pos' e
    omega

/-- The hypotheses are met by ordinary numbers: `ufp 10 = 8`. -/
example : f64.Finite (f64.ofInt 10) ∧ 2 ^ (1074 - 149) ≤ f64.val (f64.ofInt 10).mag ∧ f64.val (f64.ofInt 10).mag < 2 ^ (1074 + 128) ∧
    ufp (f64.ofInt 10) = f64.ofInt 8 ∧ f32.Finite (f32.ofInt 10) ∧ 1 ≤ f32.expo (f32.ofInt 10) ∧ ufpf (f32.ofInt 10) = f32.ofInt 8 := by
  decide +kernel

end Repro
