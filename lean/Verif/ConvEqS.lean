import Verif.ConvEq
/-!
# The conversion of the single precision type, which adds up in double precision
-/

namespace Repro
open Fmt

theorem etaDiff : f64.eta - f32.eta = 925 := by decide

/-- A float promoted to double keeps its value. -/
theorem widen_ok {x : Flt} (hx : f32.Finite x) :
    f64.Finite (widen x) ∧ f64.toInt (widen x) = f32.toInt x * 2 ^ 925 ∧ (widen x).neg = x.neg := by
  have ⟨x1, x2⟩ := finite_iff.1 hx
  obtain ⟨mant, e, h1, h2, _⟩ := val_decomp (F := f32) x.mag
  have hv := val_lt (F := f32) hx
  unfold widen
  rw [x1, x2, etaDiff]
  simp only [Bool.false_eq_true, if_false]
  have e1 : f32.val x.mag * 2 ^ 925 = mant * 2 ^ (e + 925) := by rw [h1, Nat.pow_add]; ring
  have h3 := roundMag_exact (F := f64) (m := mant) (e := e + 925)
    (Nat.lt_of_lt_of_le h2 (Nat.pow_le_pow_right (n := 2) (by omega) (show f32.p ≤ f64.p by decide)))
    (by
      rw [← e1]
      exact mul_pow_lt hv (by decide))
  rw [← e1] at h3
  refine ⟨h3.1, ?_, trivial⟩
  unfold toInt; dsimp only
  rw [h3.2]
  cases x.neg <;> (simp only [Bool.false_eq_true, if_false, if_true]; push_cast; ring)

/-- An accumulator in double precision that holds `a` units of the single precision format. -/
def GoodW (Y : Flt) (a : Int) : Prop := f64.Good Y (a * 2 ^ 925)

theorem acc_stepW {Y t : Flt} {a b : Int} (hY : GoodW Y a) (ht : f64.Finite t) (hb : f64.toInt t = b * 2 ^ 925)
    (hlt : (rndZ 53 (a + b)).natAbs < 2 ^ 1173) : GoodW (f64.add Y t) (rndZ 53 (a + b)) := by
  unfold GoodW at *
  rw [← rndZ_scale]
  have e : (a + b) * 2 ^ 925 = a * 2 ^ 925 + b * 2 ^ 925 := by ring
  rw [e]
  refine acc_step rfl hY ht hb ?_
  rw [← e, rndZ_scale, natAbs_mul_pow]
  exact mul_pow_lt hlt (by decide)

theorem sbin6_ok (j : Nat) : f64.Finite (sbin6 j) ∧ f64.toInt (sbin6 j) = 2 ^ (f32.p - 3 + f32.sexp j + 925) := by
  have h6 := six_ok (F := f64)
  have hb : f32.Finite (f32.bins j) := by rw [bins_eq]; exact mkPri_finite (win_zero f32)
  have hn : (f32.bins j).neg = false := by rw [bins_eq]; rfl
  have hw := widen_ok hb
  have hs := sexp_le (F := f32) j
  have hem : f32.emax = 255 := rfl
  have hem' : f64.emax = 2047 := rfl
  have hp : f32.p = 24 := rfl
  have hp' : f64.p = 53 := rfl
  have hv : f64.val (widen (f32.bins j)).mag = 6 * 2 ^ (f32.p - 3 + f32.sexp j + 925) := by
    have h := mkPri_toInt (F := f32) (j := j) (win_zero f32)
    rw [← bins_eq] at h
    rw [← toInt_natAbs, hw.2.1, h, natAbs_mul_pow, add_zero, Int.natAbs_mul, Int.natAbs_mul, Int.natAbs_pow, Int.natAbs_pow]
    show 3 * 2 ^ (f32.p - 2) * 2 ^ f32.sexp j * 2 ^ 925 = _
    rw [two_p2, Nat.pow_add, Nat.pow_add]; ring
  have h := div_exact (F := f64) (m := 1) (e := f32.p - 3 + f32.sexp j + 925) hw.1 h6.1 (by rw [hw.2.2, hn]) h6.2.2
    (by rw [h6.2.1]; have := pow_pos' f64.eta; omega) (by rw [hv, h6.2.1]; ring) (Nat.one_lt_two_pow (by omega))
    (by rw [Nat.one_mul]; exact Nat.pow_lt_pow_right (by omega) (by omega))
  unfold sbin6
  refine ⟨h.1, ?_⟩
  rw [h.2]; push_cast; ring

theorem scar_ok {j : Nat} {c : Int} {z : Bool} (hc : c.natAbs ≤ 2 ^ (f32.p - 1)) :
    f64.Finite (f64.mul (widen (f32.carF z c)) (sbin6 j)) ∧
    f64.toInt (f64.mul (widen (f32.carF z c)) (sbin6 j)) = c * 2 ^ (f32.p - 3) * 2 ^ f32.sexp j * 2 ^ 925 := by
  have hcf := carF_ok (F := f32) (z := z) (c := c) (Nat.le_trans hc pow_p1_le)
  have hw := widen_ok hcf.1
  have h6 := sbin6_ok j
  have hs := sexp_le (F := f32) j
  have hem : f32.emax = 255 := rfl
  have hem' : f64.emax = 2047 := rfl
  have hp : f32.p = 24 := rfl
  have hp' : f64.p = 53 := rfl
  have h := car_mul (F := f64) hw.1 (n := c) (by
      rw [hw.2.1, hcf.2, mul_assoc, ← pow_add]; congr 1)
    (Nat.le_trans hc (Nat.pow_le_pow_right (by omega) (by omega))) h6.1 h6.2 (by omega)
  refine ⟨h.1, ?_⟩
  rw [h.2, pow_add, pow_add]; ring

theorem sexpand_ok : f64.Finite (widen f32.expansion) ∧ f64.toInt (widen f32.expansion) = 2 ^ (f64.eta + 12) := by
  have h := pow2_ok (F := f32) (e := 12) (n := f32.eta + 12) (by push_cast; rfl) (by decide)
  have e : f32.expansion = f32.pow2 12 := rfl
  have hw := widen_ok h.1
  rw [e]
  refine ⟨hw.1, ?_⟩
  rw [hw.2.1, h.2.1, ← pow_add]; congr 1

/-- multiplication by `(double)binned_SMEXPANSION` -/
theorem sexpand_mul {x : Flt} (hx : f64.Finite x) {m e : Nat} (hme : (f64.toInt x).natAbs = m * 2 ^ e) (hm : m < 2 ^ f64.p)
    (hb : m * 2 ^ (e + 12) < 2 ^ (f64.p + f64.emax - 2)) :
    f64.Finite (f64.mul x (widen f32.expansion)) ∧ f64.toInt (f64.mul x (widen f32.expansion)) = f64.toInt x * 2 ^ 12 := by
  refine mul_exact hx sexpand_ok.1 (m := m) (e := e + 12) ?_ ?_ hm hb
  · rw [sexpand_ok.2, mul_assoc, ← pow_add]; congr 2
  · rw [natAbs_mul_pow, hme, Nat.pow_add]; ring

/-- The loop of `binned_ssmconv`. -/
theorem sconv_loop {fold k : Nat} {B C : Nat → Int} {Z : Nat → Bool}
    (hB : ∀ j, f32.Win (B j)) (hC : ∀ j, (C j).natAbs ≤ 2 ^ (f32.p - 1)) (n : Nat) :
    ∀ (i : Nat) (Y : Flt), (1 ≤ k + i) → GoodW Y (convAcc (f32.carTerm C) (f32.priTerm B) k i) → i + n < fold →
    (∀ l, l < fold → (convAcc (f32.carTerm C) (f32.priTerm B) k l).natAbs < 2 ^ 1173 ∧
      (rndZ 53 (convAcc (f32.carTerm C) (f32.priTerm B) k l + f32.carTerm C (k + l + 1))).natAbs < 2 ^ 1173) →
    GoodW ((List.range' (i + 1) n).foldl (sconvStep (f32.midZ fold k B C Z) k) Y) (convAcc (f32.carTerm C) (f32.priTerm B) k (i + n)) := by
  induction n with
  | zero => intro i Y _ hY _ _; simpa using hY
  | succ n ih =>
    intro i Y hk hY hn hl
    rw [List.range'_succ, List.foldl_cons]
    have e : i + (n + 1) = (i + 1) + n := by omega
    rw [e]
    refine ih (i + 1) _ (by omega) ?_ (by omega) hl
    unfold sconvStep
    dsimp only
    rw [nth_car_midZ (by omega), nth_pri_midZ' (i := i + 1 - 1) (by omega)]
    have e1 : k + (i + 1) = k + i + 1 := by omega
    have e2 : k + (i + 1 - 1) = k + i := by omega
    rw [e1, e2]
    have t1 := scar_ok (j := k + i + 1) (z := Z (k + i + 1)) (hC (k + i + 1))
    have t2 := offset_ok (F := f32) (j := k + i) (hB (k + i))
    have t3 := widen_ok t2.1
    have s1 := acc_stepW hY t1.1 (b := f32.carTerm C (k + i + 1)) (by
      rw [t1.2, sexp_pos (by omega)]; rfl) (hl i (by omega)).2
    refine acc_stepW s1 t3.1 (b := f32.priTerm B (k + i)) ?_ (hl (i + 1) (by omega)).1
    rw [t3.2.1, t2.2, sexp_pos hk]; rfl

theorem narrow_ok {Y : Flt} {a : Int} (hY : GoodW Y a) : narrow Y = f32.ofUnits a := by
  obtain ⟨h1, h2, h3⟩ := hY
  have ⟨x1, x2⟩ := finite_iff.1 h1
  have hD := ipow_pos 925
  unfold narrow
  rw [x1, x2, etaDiff]
  simp only [Bool.false_eq_true, if_false]
  have e1 : f64.val Y.mag = a.natAbs * 2 ^ 925 := by rw [← toInt_natAbs, h2, natAbs_mul_pow]
  rw [e1, roundMag_shift]
  unfold ofUnits
  congr 1
  by_cases ha : a = 0
  · rw [h3 (by rw [ha]; simp), ha]; simp
  · have hs : a * 2 ^ 925 < 0 ↔ a < 0 := by
      constructor
      · intro h; by_contra hc; have := mul_nonneg (show (0:Int) ≤ a by omega) (le_of_lt hD); omega
      · intro h; exact mul_neg_of_neg_of_pos h hD
    have ht : Y.neg = true ↔ a < 0 := by
      rw [← hs, ← h2]; unfold toInt
      have hv0 : f64.val Y.mag ≠ 0 := by rw [e1]; exact Nat.mul_ne_zero (by omega) (Nat.ne_of_gt (pow_pos' _))
      cases Y.neg <;> simp <;> omega
    by_cases hn : a < 0
    · rw [ht.2 hn]; simp [hn]
    · have : Y.neg = false := by cases hY : Y.neg with
        | false => rfl
        | true => exact absurd (ht.1 hY) hn
      rw [this]; simp [hn]

/-- `binned_ssmconv` of a nonzero state: sums rounded to 53 bits, then to the nearest float. -/
theorem ssmconv_eq {fold k : Nat} {B C : Nat → Int} {Z : Nat → Bool} (hfold : 2 ≤ fold) (hfold' : fold < 2 ^ 50)
    (hk : k ≤ f32.maxIndex) (hB : ∀ j, f32.Win (B j)) (hC : ∀ j, (C j).natAbs ≤ 2 ^ (f32.p - 1)) :
    ssmconv fold (f32.midZ fold k B C Z) = f32.ofUnits (rndZ 53 (convTotal (f32.carTerm C) (f32.priTerm B) k fold)) := by
  have hem : f32.emax = 255 := rfl
  have hem' : f64.emax = 2047 := rfl
  have hp : f32.p = 24 := rfl
  have hp' : f64.p = 53 := rfl
  have hW : f32.W = 13 := rfl
  have hu0 : ∀ j, f32.uexp j ≤ 265 := fun j => uexp_anti (F := f32) (Nat.zero_le j)
  have hQ : (∀ j, k ≤ j → (f32.carTerm C j).natAbs ≤ 2 ^ 309) ∧ (∀ j, k ≤ j → (f32.priTerm B j).natAbs ≤ 2 ^ 309) := by
    refine ⟨fun j hj => carTerm_le hC j _ ?_, fun j hj => priTerm_le hB j _ ?_⟩ <;>
    · have := hu0 j
      omega
  have h2p : 2 ^ f64.p = 2 ^ 53 := by rw [hp']
  have hall : ∀ l, l < fold → (convAcc (f32.carTerm C) (f32.priTerm B) k l).natAbs < 2 ^ 1173 ∧
      (rndZ 53 (convAcc (f32.carTerm C) (f32.priTerm B) k l + f32.carTerm C (k + l + 1))).natAbs < 2 ^ 1173 := by
    intro l hl
    have h := convAcc_bound (F := f64) rfl hQ.1 hQ.2 l (by rw [h2p]; omega)
    have hx : (2 * l + 2) * 2 ^ 309 < 2 ^ 1173 := mul_pow_lt (x := 53) (by omega) (by omega)
    have hy : (2 * l + 1) * 2 ^ 309 ≤ (2 * l + 2) * 2 ^ 309 := Nat.mul_le_mul_right _ (by omega)
    exact ⟨Nat.lt_of_le_of_lt (Nat.le_trans h.1 hy) hx, Nat.lt_of_le_of_lt h.2 hx⟩
  have hfin : (rndZ 53 (convTotal (f32.carTerm C) (f32.priTerm B) k fold)).natAbs < 2 ^ 1173 := by
    have h := convAcc_bound (F := f64) rfl hQ.1 hQ.2 (fold - 1) (by rw [h2p]; omega)
    have h2 : (rndZ f64.p (convTotal (f32.carTerm C) (f32.priTerm B) k fold)).natAbs ≤ (2 * (fold - 1) + 2) * 2 ^ 309 := by
      refine rndZ_le (by rw [h2p]; omega) ?_
      unfold convTotal
      have := hQ.2 (k + (fold - 1)) (by omega)
      have e : (2 * (fold - 1) + 2) * 2 ^ 309 = (2 * (fold - 1) + 1) * 2 ^ 309 + 2 ^ 309 := by ring
      omega
    have hx : (2 * (fold - 1) + 2) * 2 ^ 309 < 2 ^ 1173 := mul_pow_lt (x := 53) (by omega) (by omega)
    exact Nat.lt_of_le_of_lt h2 hx
  have hW0 : GoodW zero 0 := by unfold GoodW; rw [zero_mul]; exact good_zero
  have hlast : f32.sub (nth (f32.midZ fold k B C Z).pri (fold - 1)) (f32.bins (k + (fold - 1))) =
      f32.sub (f32.mkPri (k + (fold - 1)) (B (k + (fold - 1)))) (f32.bins (k + (fold - 1))) := by
    rw [nth_pri_midZ' (by omega)]
  have hlastok := offset_ok (F := f32) (j := k + (fold - 1)) (hB (k + (fold - 1)))
  rw [sexp_pos (by omega)] at hlastok
  have hlw := widen_ok hlastok.1
  unfold ssmconv
  rw [nth_pri_midZ (by omega), mkPri_isZero (hB _), mkPri_isNaNInf (hB _), dmindex_mkPri (hB _) hk]
  simp only [Bool.false_eq_true, if_false]
  rw [hlast]
  generalize hst : (if k = 0 then _ else _ : Flt × Nat) = start
  have hstart : start.2 = (if k = 0 then 2 else 1) ∧ GoodW start.1 (convAcc (f32.carTerm C) (f32.priTerm B) k (start.2 - 1)) := by
    by_cases hk0 : k = 0
    · subst hk0
      rw [if_pos rfl] at hst ⊢
      rw [← hst]
      refine ⟨rfl, ?_⟩
      dsimp only
      rw [nth_car_midZ (by omega), nth_car_midZ (by omega)]
      have hs0 : f32.sexp 0 = 253 := rfl
      have hu00 : f32.uexp 0 = 265 := rfl
      have hC0 := hC (0 + 0)
      have hl1 : (C (0 + 0)).natAbs < 2 ^ f64.p :=
        Nat.lt_of_le_of_lt hC0 (Nat.pow_lt_pow_right (by omega) (by omega))
      have hB0 : (B 0).natAbs < 2 ^ f64.p := by
        have h := hB 0
        unfold Win at h
        have h3 : ((2 ^ (f32.p - 2) : Nat) : Int) = 2 ^ (f32.p - 2) := by push_cast; rfl
        have : 2 ^ (f32.p - 2) ≤ 2 ^ f64.p := Nat.pow_le_pow_right (by omega) (by omega)
        omega
      have t0 := scar_ok (j := 0) (z := Z (0 + 0)) hC0
      have t0e : f64.toInt (f64.mul (widen (f32.carF (Z (0 + 0)) (C (0 + 0)))) (sbin6 0)) = C (0 + 0) * 2 ^ 1199 := by
        rw [t0.2, hs0, hp, mul_assoc, mul_assoc, ← pow_add, ← pow_add]
      have t0' := sexpand_mul t0.1 (m := (C (0 + 0)).natAbs) (e := 1199) (by rw [t0e, natAbs_mul_pow]) hl1
        (mul_pow_lt hl1 (by omega))
      have t1 := scar_ok (j := 1) (z := Z (0 + 1)) (hC (0 + 1))
      have t2 := offset_ok (F := f32) (j := 0) (hB 0)
      have t3 := widen_ok t2.1
      have t3e : f64.toInt (widen (f32.sub (f32.mkPri 0 (B 0)) (f32.bins 0))) = B 0 * 2 ^ 1178 := by
        rw [t3.2.1, t2.2, hs0, mul_assoc, ← pow_add]
      have t3' := sexpand_mul t3.1 (m := (B 0).natAbs) (e := 1178) (by rw [t3e, natAbs_mul_pow]) hB0
        (mul_pow_lt hB0 (by omega))
      have s0 := acc_stepW hW0 t0'.1 (b := f32.carTerm C 0) (by
        rw [t0'.2, t0e]; unfold carTerm; rw [hu00, hp, mul_assoc, mul_assoc, mul_assoc, ← pow_add, ← pow_add, ← pow_add]) (by rw [zero_add]; exact (hall 0 (by omega)).1)
      rw [zero_add (f32.carTerm C 0)] at s0
      have s1 := acc_stepW s0 t1.1 (b := f32.carTerm C 1) (by rw [t1.2, sexp_pos (by omega)]; rfl) (by have := (hall 0 (by omega)).2; exact this)
      exact acc_stepW s1 t3'.1 (b := f32.priTerm B 0) (by
        rw [t3'.2, t3e]; unfold priTerm; rw [hu00, mul_assoc, mul_assoc, ← pow_add, ← pow_add]) (by have := (hall 1 (by omega)).1; exact this)
    · rw [if_neg hk0] at hst ⊢
      rw [← hst]
      refine ⟨rfl, ?_⟩
      dsimp only
      rw [nth_car_midZ (by omega)]
      have t1 := scar_ok (j := k) (z := Z (k + 0)) (hC (k + 0))
      have s0 := acc_stepW hW0 t1.1 (b := f32.carTerm C k) (by rw [t1.2, sexp_pos (by omega)]; rfl) (by rw [zero_add]; exact (hall 0 (by omega)).1)
      rw [zero_add (f32.carTerm C k)] at s0
      exact s0
  obtain ⟨hs2, hsY⟩ := hstart
  have hsge : 1 ≤ start.2 ∧ start.2 ≤ 2 ∧ (k = 0 → start.2 = 2) ∧ (k ≠ 0 → start.2 = 1) := by
    rw [hs2]; by_cases hk0 : k = 0 <;> simp [hk0]
  have g := sconv_loop (Z := Z) (fold := fold) (k := k) hB hC (fold - start.2) (start.2 - 1) start.1 (by omega) hsY (by omega) hall
  have e1 : start.2 - 1 + 1 = start.2 := by omega
  have e2 : start.2 - 1 + (fold - start.2) = fold - 1 := by omega
  rw [e1, e2] at g
  exact narrow_ok (acc_stepW g hlw.1 (b := f32.priTerm B (k + (fold - 1))) (by rw [hlw.2.1, hlastok.2]; rfl) hfin)

/-- **What converting computes**, both formats: the terms in the order of the code, rounded to 53 bits after every
addition, then rounded to the format. -/
theorem convert_eq {F : Fmt} [h : F.OK] {fold k : Nat} {B C : Nat → Int} {Z : Nat → Bool} (hfold : 2 ≤ fold) (hfold' : fold < 2 ^ 50)
    (hk : k ≤ F.maxIndex) (hB : ∀ j, F.Win (B j)) (hC : ∀ j, (C j).natAbs ≤ 2 ^ (F.p - 1)) :
    convert F fold (F.midZ fold k B C Z) = F.ofUnits (rndZ 53 (convTotal (F.carTerm C) (F.priTerm B) k fold)) := by
  unfold convert
  rcases h.isDoubleOrFloat with hF | hF
  · have hne : F ≠ f32 := by rw [hF]; decide
    rw [if_neg hne, ddmconv_eq hF hfold hfold' hk hB hC]
    have hp : F.p = 53 := by rw [hF]; rfl
    rw [← hp, ofUnits_rndZ]
  · subst hF
    rw [if_pos rfl, ssmconv_eq hfold hfold' hk hB hC]

end Repro
