import Verif.PropsSsq
import Verif.PropsBound
import Mathlib.Algebra.Order.Field.Rat
import Mathlib.Tactic.Positivity
import Mathlib.Tactic.Linarith
import Mathlib.Tactic.NormNum
import Mathlib.Tactic.FieldSimp
import Mathlib.Tactic.GCongr

/-!
# Accuracy of the 2-norm: square root, rounding and error propagation
-/

namespace Repro
open Fmt

variable {F : Fmt}

/-! ### the square root -/

theorem isqrt_spec : ∀ n m : Nat, m < 4 ^ n → isqrt n m * isqrt n m ≤ m ∧ m < (isqrt n m + 1) * (isqrt n m + 1)
  | 0, m, h => by
    have : m = 0 := by simpa using h
    subst this; simp [isqrt]
  | n + 1, m, h => by
    have ih := isqrt_spec n (m / 4) (by rw [Nat.pow_succ] at h; omega)
    unfold isqrt
    dsimp only
    generalize isqrt n (m / 4) = r at *
    obtain ⟨h1, h2⟩ := ih
    have e1 : 2 * r * (2 * r) = 4 * (r * r) := by ring
    have e2 : (2 * r + 1 + 1) * (2 * r + 1 + 1) = 4 * ((r + 1) * (r + 1)) := by ring
    split
    · next hc => exact ⟨hc, by omega⟩
    · next hc => exact ⟨by omega, by omega⟩

theorem isqrt_ok (m : Nat) : isqrt (Nat.log2 m / 2 + 1) m * isqrt (Nat.log2 m / 2 + 1) m ≤ m ∧
    m < (isqrt (Nat.log2 m / 2 + 1) m + 1) * (isqrt (Nat.log2 m / 2 + 1) m + 1) := by
  apply isqrt_spec
  have h : m < 2 ^ (Nat.log2 m + 1) := Nat.lt_log2_self
  refine Nat.lt_of_lt_of_le h ?_
  rw [show (4 : Nat) = 2 ^ 2 from rfl, ← Nat.pow_mul]
  exact Nat.pow_le_pow_right (by omega) (by omega)

/-- Rounding `n * 2^-s` in the normal range, without assuming that the result is finite. -/
theorem round_any [F.OK] {n s : Nat} (h : 2 ^ (F.p - 1 + s) ≤ n) :
    ∃ R : Nat, R * 2 ^ s = (rndZ F.p (n : Int)).natAbs ∧
      (R < 2 ^ (F.p + F.emax - 2) → F.roundMag n s < F.infMag ∧ F.val (F.roundMag n s) = R) ∧
      (2 ^ (F.p + F.emax - 2) ≤ R → F.roundMag n s = F.infMag) := by
  have ⟨hp, hW, hWp, _, he, he1, hbi, het, _⟩ := F.facts
  have hv := round_val (F := F) n s
  have hl : F.p - 1 + s ≤ Nat.log2 n := by
    have hn : n ≠ 0 := by have := pow_pos' (F.p - 1 + s); omega
    rw [Nat.le_log2 hn]; exact h
  have hr : F.rk n s + s = Nat.log2 n - (F.p - 1) := by unfold rk; omega
  have hz := rndZ_natAbs F.p (n : Int)
  rw [Int.natAbs_natCast] at hz
  have e : rne n (s + F.rk n s) * 2 ^ F.rk n s * 2 ^ s = (rndZ F.p (n : Int)).natAbs := by
    rw [hz, ← hr, Nat.pow_add, ← Nat.mul_assoc, Nat.add_comm (F.rk n s) s]
  have h2 : F.val F.infMag = 2 ^ (F.p + F.emax - 2) := by
    have : F.infMag = (F.emax - 1) * 2 ^ (F.p - 1) + 2 ^ (F.p - 1) := by
      unfold infMag
      obtain ⟨m, hm⟩ : ∃ m, F.emax = m + 1 := ⟨F.emax - 1, by omega⟩
      rw [hm, Nat.add_sub_cancel]; ring
    rw [this, val_mk (Nat.le_refl _) (Nat.pow_lt_pow_right (by omega) (by omega)), ← Nat.pow_add]
    congr 1; omega
  refine ⟨_, e, ?_, ?_⟩
  · intro hlt
    have h3 : F.rk n s * 2 ^ (F.p - 1) + rne n (s + F.rk n s) < F.infMag := by
      by_contra hc
      have h1 : F.val F.infMag ≤ F.val (F.rk n s * 2 ^ (F.p - 1) + rne n (s + F.rk n s)) := val_mono (by omega)
      rw [hv, h2] at h1
      omega
    rw [roundMag_def, Nat.min_eq_left (by omega)]
    exact ⟨h3, hv⟩
  · intro hge
    rw [roundMag_def]
    apply Nat.min_eq_right
    by_contra hc
    have := val_lt (F := F) (m := F.rk n s * 2 ^ (F.p - 1) + rne n (s + F.rk n s)) (by omega)
    omega

/-! ### rational error propagation -/

/-- Squares of close numbers are close. -/
theorem rel_sq {R n u : Rat} (hu : 0 ≤ u) (hu2 : u ≤ 1 / 64) (hR : 0 ≤ R) (h : |R - n| ≤ u * R) : |R ^ 2 - n ^ 2| ≤ 9 / 4 * u * n ^ 2 := by
  obtain ⟨h1, h2⟩ := abs_le.1 h
  have hn : 0 ≤ n := by nlinarith
  have hR2 : R ≤ (1 + 2 * u) * n := by nlinarith [mul_nonneg hu hR, mul_nonneg hu hn]
  have h3 : |R - n| ≤ u * (1 + 2 * u) * n := le_trans h (by
    calc u * R ≤ u * ((1 + 2 * u) * n) := mul_le_mul_of_nonneg_left hR2 hu
      _ = u * (1 + 2 * u) * n := by ring)
  have e : R ^ 2 - n ^ 2 = (R - n) * (R + n) := by ring
  rw [e, abs_mul, abs_of_nonneg (by linarith : 0 ≤ R + n)]
  calc |R - n| * (R + n) ≤ (u * (1 + 2 * u) * n) * ((2 + 2 * u) * n) := by
        apply mul_le_mul h3 (by linarith) (by linarith) (by positivity)
    _ = (1 + 2 * u) * (2 + 2 * u) * u * n ^ 2 := by ring
    _ ≤ 9 / 4 * u * n ^ 2 := by
        apply mul_le_mul_of_nonneg_right _ (sq_nonneg n)
        apply mul_le_mul_of_nonneg_right _ hu
        nlinarith

/-- Rounded squares, dropped bits and conversion. -/
theorem chain1 {Q V T S u d : Rat} (hu : 0 ≤ u) (hu2 : u ≤ 1 / 256) (hd : 0 ≤ d) (hQ : 0 ≤ Q) (hS : 0 ≤ S)
    (h1 : |V - Q| ≤ 5 / 2 * u * Q) (h2 : |V - T| ≤ d * V) (h3 : |S - T| ≤ 8 * u * S) :
    |S - Q| ≤ (12 * u + 3 / 2 * d) * Q := by
  have huQ := mul_nonneg hu hQ
  have hdQ := mul_nonneg hd hQ
  obtain ⟨a1, a2⟩ := abs_le.1 h1
  have hV : V ≤ (1 + 5 / 2 * u) * Q := by linarith
  have h2' : |V - T| ≤ d * (1 + 5 / 2 * u) * Q := le_trans h2 (by
    calc d * V ≤ d * ((1 + 5 / 2 * u) * Q) := mul_le_mul_of_nonneg_left hV hd
      _ = _ := by ring)
  have hTQ : |T - Q| ≤ (5 / 2 * u + d * (1 + 5 / 2 * u)) * Q := by
    have e : T - Q = (V - Q) - (V - T) := by ring
    rw [e]
    calc |(V - Q) - (V - T)| ≤ |V - Q| + |V - T| := abs_sub _ _
      _ ≤ _ := by linarith
  obtain ⟨b1, b2⟩ := abs_le.1 h3
  have hST : 8 * S ≤ 9 * T := by nlinarith [mul_le_mul_of_nonneg_right hu2 hS]
  have h3' : |S - T| ≤ 9 * u * T := le_trans h3 (by nlinarith)
  obtain ⟨c1, c2⟩ := abs_le.1 hTQ
  have hT : T ≤ (1 + (5 / 2 * u + d * (1 + 5 / 2 * u))) * Q := by linarith
  have e : S - Q = (S - T) + (T - Q) := by ring
  rw [e]
  calc |(S - T) + (T - Q)| ≤ |S - T| + |T - Q| := abs_add_le _ _
    _ ≤ 9 * u * T + (5 / 2 * u + d * (1 + 5 / 2 * u)) * Q := by linarith
    _ ≤ 9 * u * ((1 + (5 / 2 * u + d * (1 + 5 / 2 * u))) * Q) + (5 / 2 * u + d * (1 + 5 / 2 * u)) * Q := by
        have := mul_le_mul_of_nonneg_left hT (by linarith : 0 ≤ 9 * u)
        linarith
    _ = ((9 + 5 / 2 * (1 + 9 * u)) * u + d * ((1 + 5 / 2 * u) * (1 + 9 * u))) * Q := by ring
    _ ≤ (12 * u + 3 / 2 * d) * Q := by
        apply mul_le_mul_of_nonneg_right _ hQ
        have e1 : (9 + 5 / 2 * (1 + 9 * u)) * u ≤ 12 * u := mul_le_mul_of_nonneg_right (by linarith) hu
        have e2 : d * ((1 + 5 / 2 * u) * (1 + 9 * u)) ≤ d * (3 / 2) := mul_le_mul_of_nonneg_left (by nlinarith) hd
        linarith

theorem chain2 {Q S P u d : Rat} (hu : 0 ≤ u) (hu2 : u ≤ 1 / 256) (hd : 0 ≤ d) (hQ : 0 ≤ Q)
    (h1 : |S - Q| ≤ (12 * u + 3 / 2 * d) * Q) (h2 : |P - S| ≤ 3 * u * S) : |P - Q| ≤ (16 * u + 2 * d) * Q := by
  obtain ⟨a1, a2⟩ := abs_le.1 h1
  have hS : S ≤ (1 + (12 * u + 3 / 2 * d)) * Q := by linarith
  have e : P - Q = (P - S) + (S - Q) := by ring
  rw [e]
  calc |(P - S) + (S - Q)| ≤ |P - S| + |S - Q| := abs_add_le _ _
    _ ≤ 3 * u * ((1 + (12 * u + 3 / 2 * d)) * Q) + (12 * u + 3 / 2 * d) * Q := by
        have := mul_le_mul_of_nonneg_left hS (by linarith : 0 ≤ 3 * u)
        linarith
    _ = ((15 + 36 * u) * u + d * (3 / 2 + 9 / 2 * u)) * Q := by ring
    _ ≤ (16 * u + 2 * d) * Q := by
        apply mul_le_mul_of_nonneg_right _ hQ
        have e1 : (15 + 36 * u) * u ≤ 16 * u := mul_le_mul_of_nonneg_right (by linarith) hu
        have e2 : d * (3 / 2 + 9 / 2 * u) ≤ d * 2 := mul_le_mul_of_nonneg_left (by linarith) hd
        linarith

/-- The relative error of rounding, in rationals. -/
theorem round_rat [F.OK] (n : Nat) : |(((rndZ F.p (n : Int)).natAbs : Nat) : Rat) - n| ≤ 1 / 2 ^ F.p * ((rndZ F.p (n : Int)).natAbs : Nat) := by
  have h := rnd_relF (F := F) (n : Int)
  have h0 : 0 ≤ rndZ F.p (n : Int) := by
    by_contra hc
    have := (rndZ_sign (F := F) (n : Int)).1 (by omega)
    omega
  obtain ⟨R, hR⟩ := Int.eq_ofNat_of_zero_le h0
  rw [hR] at h ⊢
  rw [Int.natAbs_natCast] at h ⊢
  have h1 : ((2 ^ F.p * ((R : Int) - n).natAbs : Nat) : Rat) ≤ (R : Nat) := by exact_mod_cast h
  have e : |(R : Rat) - n| = ((((R : Int) - n).natAbs : Nat) : Rat) := by
    rw [Nat.cast_natAbs]; push_cast; rfl
  rw [e]
  push_cast at h1 ⊢
  have h2 : (0 : Rat) < 2 ^ F.p := by positivity
  rw [one_div, inv_mul_eq_div, le_div_iff₀ h2]
  linarith

/-- The square root has a relative error of about one unit in its square. -/
theorem sqrt_err [F.OK] (hpe : F.eta + 6 ≤ F.p + F.emax) (het : 126 ≤ F.eta) (hp60 : F.p ≤ 53) {x : Flt} (hx : F.Finite x) (hn : x.neg = false) (h0 : x.mag ≠ 0) :
    F.Finite (F.sqrt x) ∧ (F.sqrt x).neg = false ∧
    |(F.val (F.sqrt x).mag : Rat) ^ 2 - F.val x.mag * 2 ^ F.eta| ≤ 5 / 2 * (1 / 2 ^ F.p) * ((F.val x.mag : Rat) * 2 ^ F.eta) := by
  have ⟨hp, _⟩ := F.facts
  have ⟨x1, x2⟩ := finite_iff.1 hx
  have hv := val_lt (F := F) hx
  have hvpos : 1 ≤ F.val x.mag := by
    by_contra hc
    exact h0 ((val_eq_zero (F := F)).1 (by omega))
  have hm := isqrt_ok (4 * (F.val x.mag * 2 ^ F.eta))
  have e1 : F.sqrt x = ⟨false, F.roundMag (2 * isqrt (Nat.log2 (4 * (F.val x.mag * 2 ^ F.eta)) / 2 + 1) (4 * (F.val x.mag * 2 ^ F.eta)) +
      (if isqrt (Nat.log2 (4 * (F.val x.mag * 2 ^ F.eta)) / 2 + 1) (4 * (F.val x.mag * 2 ^ F.eta)) * isqrt (Nat.log2 (4 * (F.val x.mag * 2 ^ F.eta)) / 2 + 1) (4 * (F.val x.mag * 2 ^ F.eta)) = 4 * (F.val x.mag * 2 ^ F.eta) then 0 else 1)) 2⟩ := by
    unfold Fmt.sqrt
    rw [x1, x2, hn, if_neg (by simp), if_neg h0, if_neg (by simp), if_neg (by simp)]
  rw [e1]
  clear e1
  generalize isqrt (Nat.log2 (4 * (F.val x.mag * 2 ^ F.eta)) / 2 + 1) (4 * (F.val x.mag * 2 ^ F.eta)) = r at *
  have hwr : (F.val x.mag : Rat) * 2 ^ F.eta = ((F.val x.mag * 2 ^ F.eta : Nat) : Rat) := by push_cast; rfl
  rw [hwr]
  generalize hw : F.val x.mag * 2 ^ F.eta = w at *
  have hw1 : 2 ^ 126 ≤ w := by
    rw [← hw]; exact Nat.le_trans (Nat.pow_le_pow_right (by omega) het) (Nat.le_mul_of_pos_left _ (by omega))
  have hw2 : w < 2 ^ (F.p + F.emax - 2 + F.eta) := by
    rw [← hw, Nat.pow_add]; exact Nat.mul_lt_mul_of_pos_right hv (pow_pos' _)
  obtain ⟨m1, m2⟩ := hm
  have hr1 : 2 ^ 64 ≤ r + 1 := by
    by_contra hc
    have h1 : (r + 1) * (r + 1) ≤ 2 ^ 64 * 2 ^ 64 := Nat.mul_le_mul (by omega) (by omega)
    omega
  have hr2 : r < 2 ^ (F.p + F.emax - 3) := by
    by_contra hc
    have h1 : 2 ^ (F.p + F.emax - 3) * 2 ^ (F.p + F.emax - 3) ≤ r * r := Nat.mul_le_mul (by omega) (by omega)
    rw [← Nat.pow_add] at h1
    have h2 : 2 ^ (2 + (F.p + F.emax - 2 + F.eta)) ≤ 2 ^ (F.p + F.emax - 3 + (F.p + F.emax - 3)) := Nat.pow_le_pow_right (by omega) (by omega)
    rw [Nat.pow_add 2 2] at h2
    omega
  generalize hN : 2 * r + (if r * r = 4 * w then 0 else 1) = N
  have hN1 : 2 * r ≤ N ∧ N ≤ 2 * r + 1 := by rw [← hN]; split <;> omega
  have hr3 : 2 ^ 63 ≤ r := by omega
  have hsq : |(N : Rat) ^ 2 - 16 * w| ≤ 1 / 2 ^ 60 * (16 * w : Rat) := by
    have a1 : (N : Rat) ^ 2 ≤ (2 * r + 1) ^ 2 := by
      have : (N : Rat) ≤ 2 * r + 1 := by exact_mod_cast hN1.2
      gcongr
    have a2 : (2 * r : Rat) ^ 2 ≤ N ^ 2 := by
      have : (2 * r : Rat) ≤ N := by exact_mod_cast hN1.1
      gcongr
    have a3 : (r * r : Rat) ≤ 4 * w := by exact_mod_cast m1
    have a4 : (4 * w : Rat) ≤ (r + 1) * (r + 1) := by exact_mod_cast Nat.le_of_lt m2
    have a5 : (2 ^ 60 : Rat) * 8 ≤ r := by
      have : (2 ^ 60 : Nat) * 8 ≤ r := by omega
      exact_mod_cast this
    have g0 : (1 : Rat) ≤ 2 ^ 60 := by norm_num
    generalize (2 : Rat) ^ 60 = g at *
    have hr0 : (1 : Rat) ≤ r := by linarith
    have a6 : g * 8 * r ≤ r * r := mul_le_mul_of_nonneg_right a5 (by linarith)
    have a7 : |(N : Rat) ^ 2 - 16 * w| ≤ 12 * (r : Rat) := by
      clear hw1 hr1 hr3 hw2 hr2
      rw [abs_le]
      constructor <;> nlinarith
    rw [one_div, inv_mul_eq_div, le_div_iff₀ (by linarith)]
    calc |(N : Rat) ^ 2 - 16 * w| * g ≤ 12 * (r : Rat) * g := mul_le_mul_of_nonneg_right a7 (by linarith)
      _ ≤ 16 * (w : Rat) := by linarith
  have hlo : 2 ^ (F.p - 1 + 2) ≤ N := by
    have : 2 ^ (F.p - 1 + 2) ≤ 2 ^ 63 := Nat.pow_le_pow_right (by omega) (by omega)
    omega
  obtain ⟨f1, f2⟩ := round_norm (F := F) (n := N) (s := 2) hlo (by
      have e : 2 ^ (F.p + F.emax - 3 + 2) = 4 * 2 ^ (F.p + F.emax - 3) := by rw [Nat.add_comm, Nat.pow_add]
      omega)
  have hrr := round_rat (F := F) N
  rw [← f2] at hrr
  refine ⟨f1, rfl, ?_⟩
  show |(F.val (F.roundMag N 2) : Rat) ^ 2 - _| ≤ _
  generalize F.val (F.roundMag N 2) = s at *
  have hu : (1 : Rat) / 2 ^ F.p ≤ 1 / 2 ^ 6 := by
    apply one_div_le_one_div_of_le (by norm_num)
    exact pow_le_pow_right₀ (by norm_num) (by omega)
  have hu' : (1 : Rat) / 2 ^ 53 ≤ 1 / 2 ^ F.p := by
    apply one_div_le_one_div_of_le (by positivity)
    exact pow_le_pow_right₀ (by norm_num) (by omega)
  have hu0 : (0 : Rat) ≤ 1 / 2 ^ F.p := by positivity
  generalize (1 : Rat) / 2 ^ F.p = u at *
  have h4 := rel_sq hu0 (by norm_num at hu ⊢; linarith) (by positivity) hrr
  have e : ((s * 2 ^ 2 : Nat) : Rat) ^ 2 = 16 * (s : Rat) ^ 2 := by push_cast; ring
  rw [e] at h4
  clear hrr hN1 hN m1 m2 hr1 hr2 hr3 hw1 hw2 hw hv f2 hwr
  have h5 := (abs_le.1 hsq)
  have h6 := (abs_le.1 h4)
  have hw0 : (0 : Rat) ≤ w := by positivity
  have h7 : (N : Rat) ^ 2 ≤ (1 + 1 / 2 ^ 60) * (16 * w : Rat) := by linarith
  have h8 : 9 / 4 * u * (N : Rat) ^ 2 ≤ 9 / 4 * u * ((1 + 1 / 2 ^ 60) * (16 * w)) := mul_le_mul_of_nonneg_left h7 (by linarith)
  have h9 : 1 / 2 ^ 60 * (w : Rat) ≤ 1 / 100 * u * w := mul_le_mul_of_nonneg_right (by norm_num at hu' ⊢; linarith) hw0
  have h10 : 0 ≤ u * (w : Rat) := mul_nonneg hu0 hw0
  rw [abs_le]
  norm_num at h5 h6 h8 h9 ⊢
  constructor <;> nlinarith


/-! ### conversion of the sum of squares -/

/-- A sum well inside the range converts to a finite number, of the right sign. -/
theorem conv_seq_ok [F.OK] {fold : Nat} (hfold : 2 ≤ fold) (hfold' : fold < 2 ^ 50) {xs : List Flt} (hne : xs ≠ [])
    (hx : ∀ x ∈ xs, F.Finite x) (hN : xs.length ≤ F.capacity)
    (h0 : ∀ j, F.maxIndex < j → j < F.minIndex xs + fold → F.total xs j = 0)
    (hT0 : 0 ≤ F.exactVal fold (F.sumSeq fold xs (dmsetzero fold)))
    (hT : F.exactVal fold (F.sumSeq fold xs (dmsetzero fold)) < 2 ^ (F.p + F.emax - 4)) :
    F.Finite (convert F fold (F.sumSeq fold xs (dmsetzero fold))) ∧ (convert F fold (F.sumSeq fold xs (dmsetzero fold))).neg = false := by
  have ⟨hp, hW, hWp, _, he, _⟩ := F.facts
  have hcap : ∀ j, (F.total xs j).natAbs ≤ F.capacity * 2 ^ (F.W - 1) := fun j =>
    Nat.le_trans (total_bound hx j) (Nat.mul_le_mul_right _ hN)
  rw [exactVal_sumSeq hfold hne hx hN] at hT0 hT
  have hsp : F.sumSeq fold xs (dmsetzero fold) = F.canon fold (F.minIndex xs) (F.total xs) := by
    rw [C01_sum_is_spec (F := F) hfold hx hN]
    unfold specSum
    rw [if_neg hne]
  rw [hsp, convert_canon hfold hfold' (minIndex_le _) hcap]
  have he := convTotal_err (F := F) (fold := fold) (k := F.minIndex xs) (by omega) hcap h0
  dsimp only at he
  generalize sumTo (fun i => F.total xs (F.minIndex xs + i) * 2 ^ F.uexp (F.minIndex xs + i)) fold = T at *
  generalize rndZ 53 (convTotal (F.carTerm (fun j => F.total xs j / 2 ^ (F.p - 3)))
      (F.priTerm (fun j => F.total xs j % 2 ^ (F.p - 3))) (F.minIndex xs) fold) = R at *
  have hR0 : 0 ≤ R := by
    rcases he with rfl | ⟨h1, -⟩
    · exact hT0
    · omega
  have hR : R.natAbs ≤ 2 * T.natAbs := by
    rcases he with rfl | ⟨h1, -⟩
    · omega
    · omega
  have hr := rnd_relF (F := F) R
  have hrb : (rndZ F.p R).natAbs ≤ 2 * R.natAbs := by
    have h2 : 2 * (rndZ F.p R - R).natAbs ≤ (rndZ F.p R).natAbs :=
      Nat.le_trans (Nat.mul_le_mul_right _ (show 2 ^ 1 ≤ 2 ^ F.p from Nat.pow_le_pow_right (by omega) (by omega))) hr
    omega
  have hlt : (rndZ F.p R).natAbs < 2 ^ (F.p + F.emax - 2) := by
    have e : 2 ^ (F.p + F.emax - 2) = 4 * 2 ^ (F.p + F.emax - 4) := by
      rw [show F.p + F.emax - 2 = 2 + (F.p + F.emax - 4) by omega, Nat.pow_add]
    have h3 : T.natAbs < 2 ^ (F.p + F.emax - 4) := by
      have : ((T.natAbs : Nat) : Int) < ((2 ^ (F.p + F.emax - 4) : Nat) : Int) := by
        push_cast; rw [abs_of_nonneg hT0]; exact hT
      exact_mod_cast this
    omega
  refine ⟨(ofUnits_good hlt).1, ?_⟩
  unfold ofUnits
  dsimp only
  simp only [decide_eq_false_iff_not]
  omega

/-- What is dropped of a number that is not negative is at most the number itself, and the rest is not negative. -/
theorem resid_le [F.OK] {r : Int} {k n : Nat} (hr : 0 ≤ r) (hn : 1 ≤ n) (hk : F.resid r k = r) : F.resid r (k + n) ≤ r := by
  have h := slices_sum (F := F) r k n
  rw [hk] at h
  have hd : (2 ^ F.uexp (k + n - 1) : Int) ∣ r - F.resid r (k + n) := by
    rw [← h]
    have : ∀ i, i ≤ n → (2 ^ F.uexp (k + n - 1) : Int) ∣ sumTo (fun i => F.slice r (k + i) * 2 ^ F.uexp (k + i)) i := by
      intro i
      induction i with
      | zero => intro _; exact dvd_zero _
      | succ i ih =>
        intro hi
        unfold sumTo
        exact Int.dvd_add (ih (by omega)) (Dvd.dvd.mul_left (pow_dvd_pow 2 (uexp_anti (by omega))) _)
    exact this n (Nat.le_refl _)
  have hb := resid_succ_bound (F := F) r (k + n - 1)
  rw [show k + n - 1 + 1 = k + n by omega] at hb
  have hU := ipow_pos (F.uexp (k + n - 1))
  obtain ⟨c, hc⟩ := hd
  have hc1 : 0 ≤ c := by
    by_contra hh
    have : 2 ^ F.uexp (k + n - 1) * c ≤ 2 ^ F.uexp (k + n - 1) * (-1) := mul_le_mul_of_nonneg_left (by omega) (le_of_lt hU)
    omega
  have := mul_nonneg (le_of_lt hU) hc1
  omega

theorem sum_ge_mem {α : Type} {f : α → Int} : ∀ {l : List α}, (∀ x ∈ l, 0 ≤ f x) → ∀ {y : α}, y ∈ l → f y ≤ (l.map f).sum
  | [], _, _, hy => by simp at hy
  | x :: l, h, y, hy => by
    rw [List.map_cons, List.sum_cons]
    have h0 := h x List.mem_cons_self
    have hl : ∀ z ∈ l, 0 ≤ f z := fun z hz => h z (List.mem_cons_of_mem _ hz)
    rcases List.mem_cons.1 hy with rfl | hy
    · have : 0 ≤ (l.map f).sum := List.sum_nonneg (by
        intro a ha
        obtain ⟨z, hz, rfl⟩ := List.mem_map.1 ha
        exact hl z hz)
      omega
    · have := sum_ge_mem hl hy
      omega

theorem sum_map_sub' {α : Type} {f g : α → Int} : ∀ (l : List α), (l.map f).sum - (l.map g).sum = (l.map (fun x => f x - g x)).sum
  | [] => by simp
  | x :: l => by
    rw [List.map_cons, List.sum_cons, List.map_cons, List.sum_cons, List.map_cons, List.sum_cons, ← sum_map_sub' l]
    ring

/-- A sum of numbers that are not negative keeps at least what it keeps of one of them. -/
theorem exactVal_ge [F.OK] {fold : Nat} (hfold : 2 ≤ fold) {xs : List Flt} (hx : ∀ x ∈ xs, F.Finite x ∧ x.neg = false)
    (hN : xs.length ≤ F.capacity) {y : Flt} (hy : y ∈ xs) :
    2 * F.toInt y ≤ 2 * F.exactVal fold (F.sumSeq fold xs (dmsetzero fold)) + 2 ^ F.uexp (F.minIndex xs + fold - 1) := by
  have hne : xs ≠ [] := by rintro rfl; simp at hy
  rw [exactVal_sumSeq hfold hne (fun x h => (hx x h).1) hN]
  have hl := totals_loss (F := F) (n := fold) (xs := xs) (fun x h => ⟨(hx x h).1, minIndex_le_mem h⟩)
  have hpos : ∀ x ∈ xs, 0 ≤ F.toInt x := by
    intro x h
    unfold toInt
    rw [(hx x h).2]
    exact Int.natCast_nonneg _
  have hk : ∀ x ∈ xs, 0 ≤ F.toInt x - F.resid (F.toInt x) (F.minIndex xs + fold) := by
    intro x h
    have := resid_le (F := F) (k := F.minIndex xs) (n := fold) (hpos x h) (by omega)
      (resid_of_fits (dindex_le_max x) (fits_dindex (hx x h).1) _ (minIndex_le_mem h))
    omega
  have h1 := sum_ge_mem hk hy
  rw [← sum_map_sub'] at h1
  unfold exactSum at hl
  have hb := resid_succ_bound (F := F) (F.toInt y) (F.minIndex xs + fold - 1)
  rw [show F.minIndex xs + fold - 1 + 1 = F.minIndex xs + fold by omega] at hb
  omega

end Repro
